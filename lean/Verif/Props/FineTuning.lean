import Verif.Datasets.SftLemmas
import Verif.Props.CrossEntropy
import Verif.Props.Encoder

/-!
# C100: What fine-tuning learns

The specification takes one example at a time and knows nothing of batches, padding and masks: the loss of an example is the sum, over
the tokens of its response, of minus the logarithm of the probability that the model gives to the token after everything before it.
The probabilities are those of `Dec.Spec.logits`, which generation token by token fulfils (C96).
-/

namespace Fs2.Props
open Fs2.Nn Fs2.Speech Fs2.Enc Fs2.Sft Fs2.Batch
open Fs2.Dec hiding GoodLayer
open Fs2.Loss (crossEntropy)

/-! ### Specification -/

/-- The positions of an example that are to be learnt: those of the response, but for a first token with nothing before it. -/
def learnt (e : Example) : List Nat := (List.range (e.src ++ e.tgt).length).filter fun i => 0 < i ∧ e.src.length ≤ i

/-- The token at a position. -/
def tokenAt (e : Example) (i : Nat) : Int := (e.src ++ e.tgt).getD i 0

/-- Everything before a position. -/
def before (e : Example) (i : Nat) : List Nat := ((e.src ++ e.tgt).take i).map Int.toNat

/-- Minus the logarithm of the probability of a token after the given ones. -/
noncomputable def surprise (vocab : Nat) (m : Model) (tokens : List Nat) (t : Nat) : ℝ :=
  - Real.log (softmaxAt ((List.range vocab).map ((Dec.Spec.logits m [] tokens).getLast?.getD fun _ => 0)) t)

/-- The loss of an example. Tokens that are the padding of the model are left out. -/
noncomputable def exampleLoss (vocab : Nat) (pad : Option Int) (m : Model) (e : Example) : ℝ :=
  (((learnt e).filter fun i => pad ≠ some (tokenAt e i)).map fun i =>
    surprise vocab m (before e i) (tokenAt e i).toNat).sum

/-- Examples whose tokens are in the vocabulary. -/
def TokensIn (vocab : Nat) (e : Example) : Prop := ∀ t ∈ e.src ++ e.tgt, 0 ≤ t ∧ t < vocab

/-! ### Lemmas -/

private theorem range_cut (n k : Nat) (q : Nat → Bool) :
    (List.range (n + k)).filter (fun i => q i && decide (i < n)) = (List.range n).filter q := by
  induction k with
  | zero =>
    apply List.filter_congr
    intro i hi
    have := List.mem_range.1 hi
    simp; omega
  | succ k ih =>
    rw [← Nat.add_assoc, List.range_succ, List.filter_append, ih]
    simp

private theorem shifted (s n W : Nat) (h : n ≤ W) (hW : 1 ≤ W) :
    ((List.range (W - 1)).filter fun i => decide (s ≤ i + 1 ∧ i + 1 < n)).map (· + 1) =
      (List.range n).filter fun i => decide (0 < i ∧ s ≤ i) := by
  obtain ⟨k, rfl⟩ : ∃ k, W = n + k := ⟨W - n, by omega⟩
  rw [← range_cut n k]
  obtain ⟨w, hw⟩ : ∃ w, n + k = w + 1 := ⟨n + k - 1, by omega⟩
  rw [hw, Nat.add_sub_cancel, List.range_succ_eq_map, List.filter_cons_of_neg (by simp), List.filter_map]
  have : ((fun i => decide (0 < i ∧ s ≤ i) && decide (i < n)) ∘ Nat.succ) = fun i => decide (s ≤ i + 1 ∧ i + 1 < n) := by
    funext i
    simp [Nat.succ_eq_add_one]
  rw [this]

private theorem keep_tail {W : Nat} {e : Example} (hl : (toks e).length ≤ W) :
    (keepOf W e).tail = (List.range (W - 1)).map fun i => decide (e.src.length ≤ i + 1 ∧ i + 1 < (toks e).length) := by
  apply List.ext_getElem?
  intro i
  rw [List.getElem?_tail, List.getElem?_map]
  by_cases h : i + 1 < W
  · rw [keepOf_get h hl, List.getElem?_range (by omega)]
    rfl
  · rw [List.getElem?_eq_none (by rw [keepOf_length hl]; omega), List.getElem?_eq_none (by simp; omega)]
    rfl

private theorem count_learnt {W : Nat} {e : Example} (hl : (toks e).length ≤ W) (hW : 1 ≤ W) :
    (keepOf W e).tail.count true = (learnt e).length := by
  rw [keep_tail hl, learnt]
  have := shifted e.src.length (toks e).length W hl hW
  unfold toks at this
  rw [← this, List.length_map, List.count, List.countP_map, List.countP_eq_length_filter]
  congr 1
  apply List.filter_congr
  intro i _
  simp [toks]

/-- The positions of a row of the batch. -/
noncomputable def rowPositions (vocab : Nat) (padIdx : Int) (W : Nat) (e : Example) (y : List Vec) : List Position :=
  (List.range (W - 1)).map fun i =>
    ⟨vocabRow vocab (Dec.Spec.at' y i), (rowOf padIdx W e).tail.getD i 0, decide (e.src.length ≤ i + 1 ∧ i + 1 < (toks e).length)⟩

private theorem rows_flat {β : Type} (bucket : List Example) (ys : List (List Vec)) (hl : ys.length = bucket.length)
    (f : Example → List Vec → List Position) (p : Position → β) (g : Example → List Vec → List β)
    (h : ∀ e ∈ bucket, ∀ y ∈ ys, (f e y).map p = g e y) :
    ((List.zipWith f bucket ys).flatten).map p = (List.zipWith g bucket ys).flatten := by
  induction bucket generalizing ys with
  | nil => simp
  | cons e bucket ih =>
    cases ys with
    | nil => simp
    | cons y ys =>
      rw [List.zipWith_cons_cons, List.zipWith_cons_cons, List.flatten_cons, List.flatten_cons, List.map_append, h e (by simp) y (by simp),
        ih ys (by simpa using hl) fun e he y hy => h e (by simp [he]) y (by simp [hy])]

private theorem zip_left {β : Type} (bucket : List Example) (ys : List (List Vec)) (hl : ys.length = bucket.length) (g : Example → β) :
    List.zipWith (fun e _ => g e) bucket ys = bucket.map g := by
  apply List.ext_getElem <;> simp [hl]

private theorem zip_right {β : Type} (bucket : List Example) (ys : List (List Vec)) (hl : ys.length = bucket.length) (g : List Vec → β) :
    List.zipWith (fun _ y => g y) bucket ys = ys.map g := by
  apply List.ext_getElem <;> simp [hl]

private theorem sum_flat (L : List (List Position)) (c : Position → Bool) (f : Position → ℝ) :
    ((L.flatten.filter c).map f).sum = (L.map fun l => ((l.filter c).map f).sum).sum := by
  induction L with
  | nil => rfl
  | cons l L ih => rw [List.flatten_cons, List.filter_append, List.map_append, List.sum_append, ih, List.map_cons, List.sum_cons]

private theorem entropy_zero (vocab : Nat) (p : Position) (h : InVocab vocab p) :
    entropyAt vocab 0 p = - Real.log (softmaxAt p.row p.target.toNat) := by
  unfold entropyAt aim
  have : ∀ n, ((List.range n).map fun v => (if v = p.target.toNat then (1 : ℝ) - 0 else 0 / ((vocab : ℝ) - 1)) *
      - Real.log (softmaxAt p.row v)).sum = if p.target.toNat < n then - Real.log (softmaxAt p.row p.target.toNat) else 0 := by
    intro n
    induction n with
    | zero => simp
    | succ n ih =>
      rw [List.range_succ, List.map_append, List.sum_append, ih]
      simp only [List.map_cons, List.map_nil, List.sum_cons, List.sum_nil, add_zero, sub_zero, zero_div]
      by_cases h1 : n = p.target.toNat
      · subst h1; simp
      · by_cases h2 : p.target.toNat < n
        · rw [if_pos h2, if_neg h1, if_pos (by omega)]; ring
        · rw [if_neg h2, if_neg h1, if_neg (by omega)]; ring
  rw [this, if_pos h.2]

private theorem row_loss (vocab : Nat) (pad : Option Int) (m : Model) (padIdx : Int) (W : Nat) (e : Example) (y : List Vec)
    (hl : (toks e).length ≤ W) (h2 : 2 ≤ (toks e).length) (hv : TokensIn vocab e)
    (hy : y.take ((toks e).length - 1) = Dec.Spec.logits m [] (((toks e).dropLast).map Int.toNat)) :
    (((rowPositions vocab padIdx W e y).filter (countsIn pad)).map (entropyAt vocab 0)).sum = exampleLoss vocab pad m e := by
  unfold rowPositions exampleLoss
  have hs := shifted e.src.length (toks e).length W hl (by omega)
  have hlearn : learnt e = ((List.range (W - 1)).filter fun i => decide (e.src.length ≤ i + 1 ∧ i + 1 < (toks e).length)).map (· + 1) := by
    rw [hs]; rfl
  rw [hlearn, List.filter_map, List.filter_map, List.map_map, List.map_map, List.filter_filter]
  have htgt : ∀ i, i + 1 < (toks e).length → (rowOf padIdx W e).tail.getD i 0 = tokenAt e (i + 1) := by
    intro i hi
    rw [List.getD_eq_getElem?_getD, List.getElem?_tail, rowOf, List.getElem?_append_left hi, tokenAt, List.getD_eq_getElem?_getD]
    rfl
  congr 1
  have hf : (List.range (W - 1)).filter (countsIn pad ∘ fun i => (⟨vocabRow vocab (Dec.Spec.at' y i), (rowOf padIdx W e).tail.getD i 0,
        decide (e.src.length ≤ i + 1 ∧ i + 1 < (toks e).length)⟩ : Position)) =
      (List.range (W - 1)).filter fun i => ((fun i => decide (pad ≠ some (tokenAt e i))) ∘ fun x => x + 1) i &&
        decide (e.src.length ≤ i + 1 ∧ i + 1 < (toks e).length) := by
    apply List.filter_congr
    intro i _
    simp only [Function.comp, countsIn]
    by_cases h : e.src.length ≤ i + 1 ∧ i + 1 < (toks e).length
    · simp only [htgt i h.2]
      exact Bool.and_comm _ _
    · simp [h]
  rw [hf]
  apply List.map_congr_left
  intro i hi
  rw [List.mem_filter] at hi
  obtain ⟨_, hi⟩ := hi
  simp only [Bool.and_eq_true, decide_eq_true_eq] at hi
  obtain ⟨-, h3, h4⟩ := hi
  have hmem : tokenAt e (i + 1) ∈ e.src ++ e.tgt := by
    unfold tokenAt
    rw [List.getD_eq_getElem?_getD]
    unfold toks at h4
    rw [List.getElem?_eq_getElem h4]
    exact List.getElem_mem h4
  have hin := hv _ hmem
  simp only [Function.comp]
  rw [entropy_zero]
  swap
  · simp only [InVocab]
    rw [htgt i h4]
    omega
  simp only [surprise]
  rw [htgt i h4]
  congr 3
  unfold vocabRow
  congr 1
  -- the logits of the last of the tokens before
  have hb : before e (i + 1) = (((toks e).dropLast).map Int.toNat).take (i + 1) := by
    unfold before
    rw [← List.map_take, List.dropLast_eq_take, List.take_take, Nat.min_eq_left (by omega)]
    rfl
  rw [hb, logits_take, ← hy, List.take_take, Nat.min_eq_left (by omega)]
  have hyl : (toks e).length - 1 ≤ y.length := by
    have := congrArg List.length hy
    rw [Sft.logits_length, List.length_take, List.length_map, List.length_dropLast] at this
    omega
  rw [Dec.Spec.at', List.getLast?_eq_getElem?, List.length_take, Nat.min_eq_left (by omega), List.getElem?_take, if_pos (by omega)]
  rfl

/-! ### C100 -/

/-- **C100.** The loss of a bucket of examples is the sum of the losses of its examples, each on its own: the tokens of the responses
and no others are learnt, every one given exactly the tokens before it in the same example. The number of targets that goes with it is
the number of these tokens. The padding, and what else is in the bucket, has no influence.

Missing for the full property: the `pad_idx` of the model among the tokens of a response, see `C100_uncounted`; ALiBi (`C98_lm_partial`). -/
theorem C100_loss_partial (vocab : Nat) (pad : Option Int) (m : Model) (hlm : ∀ L ∈ m.layers, L.cross = none) (padIdx : Int)
    (hp : 0 ≤ padIdx ∧ padIdx < vocab) (bucket : List Example) (hne : bucket ≠ []) (hid : IdsMatch bucket)
    (hlen : ∀ e ∈ bucket, 2 ≤ (e.src ++ e.tgt).length) (hv : ∀ e ∈ bucket, TokensIn vocab e)
    (hm : ∀ e ∈ bucket, PadModel m ((e.src ++ e.tgt).length - 1)) :
    ∃ b, batchOf padIdx bucket = some b ∧
      processBatch vocab pad m b =
        some ((bucket.map (exampleLoss vocab pad m)).sum, (bucket.map fun e => (learnt e).length).sum) := by
  obtain ⟨b, hb, h1, h2, h3⟩ := batchOf_ok padIdx bucket hne hid fun e he => by have := hlen e he; unfold toks; omega
  obtain ⟨inp, tgt, har, i1, i2, t1, t2, t3⟩ := autoRegressive_ok padIdx bucket hne hlen b h1 h2 h3
  refine ⟨b, hb, ?_⟩
  obtain ⟨W, hW⟩ : ∃ W, W = wide bucket := ⟨_, rfl⟩
  rw [← hW] at h1 h3 i1 t1 t2 t3
  have hle : ∀ e ∈ bucket, (toks e).length ≤ W := fun e he => hW ▸ le_wide he
  have hW2 : 2 ≤ W := by
    obtain ⟨e₀, he₀⟩ := List.exists_mem_of_ne_nil _ hne
    exact Nat.le_trans (hlen e₀ he₀) (hle e₀ he₀)
  have hrow : ∀ e ∈ bucket, ∀ t ∈ rowOf padIdx W e, 0 ≤ t ∧ t < (vocab : Int) := by
    intro e he t ht
    rcases List.mem_append.1 ht with h | h
    · exact hv e he t h
    · rw [(List.mem_replicate.1 h).2]; exact hp
  obtain ⟨tokens, htok⟩ : ∃ tokens, tokens = bucket.map fun e => ((rowOf padIdx W e).dropLast).map Int.toNat := ⟨_, rfl⟩
  have hidx : (bucket.map fun e => (rowOf padIdx W e).dropLast).mapM (fun (row : List Int) => row.mapM (indexOf vocab)) = some tokens := by
    rw [indices_ok, htok, List.map_map]
    · rfl
    · intro r hr t ht
      obtain ⟨e, he, rfl⟩ := List.mem_map.1 hr
      exact hrow e he t (List.mem_of_mem_dropLast ht)
  obtain ⟨S, hS⟩ : ∃ S, S = bucket.map fun e => ((toks e).dropLast).map Int.toNat := ⟨_, rfl⟩
  have hSlen : (S.map fun s => (s.length : Int)) = bucket.map fun e => (((toks e).length - 1 : Nat) : Int) := by
    rw [hS, List.map_map]
    exact List.map_congr_left fun e _ => by simp
  obtain ⟨l, hl⟩ := (C47_padded [(S.length : Int), ((W - 1 : Nat) : Int)] (S.map fun s => (s.length : Int))).2 ((W - 1 : Nat) : Int)
    (by simp) (by omega) (by
      intro n hn
      rw [hSlen] at hn
      obtain ⟨e, he, rfl⟩ := List.mem_map.1 hn
      have := hlen e he
      have := hle e he
      unfold toks at *
      omega)
  have hc : Carries (W - 1) tokens l S := by
    refine ⟨by simp [htok, hS], ?_, ?_, hl⟩
    · intro r s hr
      rw [hS, List.getElem?_map] at hr
      obtain ⟨e, he, rfl⟩ := Option.map_eq_some_iff.1 hr
      have hmem : e ∈ bucket := List.mem_of_getElem? he
      refine ⟨((rowOf padIdx W e).dropLast).map Int.toNat, by rw [htok, List.getElem?_map, he]; rfl, ?_⟩
      rw [← List.map_take]
      congr 1
      rw [List.length_map, List.length_dropLast, List.dropLast_eq_take, rowOf_length (hle e hmem), List.take_take,
        Nat.min_eq_left (by have := hle e hmem; omega), rowOf, List.take_append_of_le_length (by omega), List.dropLast_eq_take]
    · intro row hr
      rw [htok] at hr
      obtain ⟨e, he, rfl⟩ := List.mem_map.1 hr
      rw [List.length_map, List.length_dropLast, rowOf_length (hle e he)]
  obtain ⟨ys, hys, hcy⟩ := C98_lm_partial m hlm (by simpa [hS] using hne) hc
    (by
      intro s hs
      rw [hS] at hs
      obtain ⟨e, he, rfl⟩ := List.mem_map.1 hs
      simpa [toks] using hm e he)
    (by
      obtain ⟨e, he, hee⟩ := wide_mem hne
      by_cases h : W - 1 = 1
      · exact .inl h
      · refine .inr ⟨((toks e).dropLast).map Int.toNat, by rw [hS]; exact List.mem_map.2 ⟨e, he, rfl⟩, ?_⟩
        rw [List.length_map, List.length_dropLast, hee, ← hW]
        omega)
  have hyn : ys.length = bucket.length := by rw [hcy.num]; simp [hS]
  -- the positions
  obtain ⟨ps, hps⟩ : ∃ ps, ps = (List.zipWith (rowPositions vocab padIdx W) bucket ys).flatten := ⟨_, rfl⟩
  have pr : ps.map (·.row) = ys.flatten.map (vocabRow vocab) := by
    rw [hps, rows_flat bucket ys hyn _ _ (fun _ y => y.map (vocabRow vocab)), zip_right bucket ys hyn, List.map_flatten]
    intro e he y hy
    have := hcy.wide y hy
    apply List.ext_getElem
    · simp [rowPositions, this]
    · intro i g1 g2
      simp only [List.length_map] at g2
      simp only [rowPositions, List.map_map, List.getElem_map, List.getElem_range, Function.comp]
      rw [at'_eq g2]
  have pt : ps.map (·.target) = (bucket.map fun e => (rowOf padIdx W e).tail).flatten := by
    rw [hps, rows_flat bucket ys hyn _ _ (fun e _ => (rowOf padIdx W e).tail), zip_left bucket ys hyn]
    intro e he y hy
    have hrl := rowOf_length (pad := padIdx) (hle e he)
    apply List.ext_getElem
    · simp [rowPositions, hrl]
    · intro i g1 g2
      simp only [rowPositions, List.map_map, List.getElem_map, List.getElem_range, Function.comp]
      rw [List.getD_eq_getElem?_getD, List.getElem?_eq_getElem g2]
      rfl
  have pk : ps.map (·.keep) = (bucket.map fun e => (keepOf W e).tail).flatten := by
    rw [hps, rows_flat bucket ys hyn _ _ (fun e _ => (keepOf W e).tail), zip_left bucket ys hyn]
    intro e he y hy
    rw [keep_tail (hle e he)]
    simp only [rowPositions, List.map_map]
    rfl
  have hin : ∀ p ∈ ps, InVocab vocab p := by
    intro p hp'
    have : p.target ∈ ps.map (·.target) := List.mem_map.2 ⟨p, hp', rfl⟩
    rw [pt, List.mem_flatten] at this
    obtain ⟨r, hr, ht⟩ := this
    obtain ⟨e, he, rfl⟩ := List.mem_map.1 hr
    have := hrow e he _ (List.mem_of_mem_tail ht)
    unfold InVocab
    omega
  have hloss := C94_loss vocab pad 0 le_rfl (.inl rfl) (some ys.length) true ps
    (by
      intro p hp'
      have : p.row ∈ ps.map (·.row) := List.mem_map.2 ⟨p, hp', rfl⟩
      rw [pr, List.mem_map] at this
      obtain ⟨y, _, e⟩ := this
      rw [← e]
      simp [vocabRow])
    (by simp) (fun p hp' => .inl (hin p hp')) .sum
  unfold lossCall at hloss
  rw [pr, pt, pk, if_pos rfl] at hloss
  simp only [lossOf] at hloss
  -- the loss
  have hmodel : lmLoss vocab pad m (bucket.map fun e => (rowOf padIdx W e).dropLast) l tgt.seqs tgt.mask =
      some ((bucket.map (exampleLoss vocab pad m)).sum) := by
    unfold lmLoss
    rw [hidx, Option.bind_some, hys, Option.bind_some, t1, t2]
    simp only [flat, Option.map_some]
    rw [hloss]
    simp only [Option.some.injEq]
    rw [hps, sum_flat]
    congr 1
    rw [List.map_zipWith]
    apply List.ext_getElem
    · simp [hyn]
    · intro i g1 g2
      rw [List.getElem_zipWith, List.getElem_map]
      simp only [List.length_map] at g2
      have hei : bucket[i]? = some bucket[i] := List.getElem?_eq_getElem g2
      have hmem : bucket[i] ∈ bucket := List.getElem_mem g2
      obtain ⟨y, hyi, hyt⟩ := hcy.begins i _ (by rw [hS, List.getElem?_map, List.getElem?_map, hei]; rfl)
      have hy' : ys[i] = y := by
        have hlt : i < ys.length := by omega
        rw [List.getElem?_eq_getElem hlt] at hyi
        exact Option.some.inj hyi
      rw [hy']
      refine row_loss vocab pad m padIdx W _ y (hle _ hmem) (hlen _ hmem) (hv _ hmem) ?_
      rw [Sft.logits_length, List.length_map, List.length_dropLast] at hyt
      exact hyt
  unfold processBatch
  rw [har, Option.bind_some]
  simp only [i1]
  have hlay : Layout.of [((bucket.map fun e => (rowOf padIdx W e).dropLast).length : Int), ((W - 1 : Nat) : Int)]
      (some (inp.lens.map fun (n : Nat) => (n : Int))) false = some l := by
    rw [i2, List.map_map]
    rw [hSlen] at hl
    simp only [Layout.of, Bool.false_eq_true, if_false, List.take]
    rw [show (bucket.map fun e => (rowOf padIdx W e).dropLast).length = S.length by simp [hS]]
    exact hl
  rw [hlay, Option.bind_some, hmodel, Option.map_some, t3]
  congr 2
  apply congrArg List.sum
  exact List.map_congr_left fun e he => count_learnt (hle e he) (by omega)

/-- **C100 (what is learnt).** Every token of the response, if there is a prompt; else every one but the first. -/
theorem C100_learnt (e : Example) :
    (e.src ≠ [] → learnt e = (List.range e.tgt.length).map (e.src.length + ·)) ∧
    (e.src = [] → learnt e = (List.range (e.tgt.length - 1)).map (1 + ·)) := by
  have h0 : ∀ a n : Nat, 0 < a → ((List.range (a + n)).filter fun i => decide (0 < i ∧ a ≤ i)) = (List.range n).map (a + ·) := by
    intro a n ha
    rw [List.range_add, List.filter_append, List.filter_eq_nil_iff.2, List.nil_append, List.filter_eq_self.2]
    · simp; omega
    · simp; omega
  constructor
  · intro h
    rw [learnt, List.length_append]
    exact h0 _ _ (List.length_pos_iff.2 h)
  · intro h
    rw [learnt, h, List.nil_append]
    cases hn : e.tgt.length with
    | zero => rfl
    | succ n =>
      rw [Nat.add_comm n 1, Nat.add_sub_cancel_left, ← h0 1 n (by omega)]
      apply List.filter_congr
      intro i _
      simp
      omega

/-- **C100 (buckets).** It makes no difference how examples are put into buckets: the losses and the numbers of targets of two
buckets are together those of one bucket of all their examples. -/
theorem C100_split (vocab : Nat) (pad : Option Int) (m : Model) (hlm : ∀ L ∈ m.layers, L.cross = none) (padIdx : Int)
    (hp : 0 ≤ padIdx ∧ padIdx < vocab) (xs ys : List Example) (hx : xs ≠ []) (hy : ys ≠ []) (hid : IdsMatch (xs ++ ys))
    (hlen : ∀ e ∈ xs ++ ys, 2 ≤ (e.src ++ e.tgt).length) (hv : ∀ e ∈ xs ++ ys, TokensIn vocab e)
    (hm : ∀ e ∈ xs ++ ys, PadModel m ((e.src ++ e.tgt).length - 1)) :
    ∃ x y n k, (batchOf padIdx xs).bind (processBatch vocab pad m) = some (x, n) ∧
      (batchOf padIdx ys).bind (processBatch vocab pad m) = some (y, k) ∧
      (batchOf padIdx (xs ++ ys)).bind (processBatch vocab pad m) = some (x + y, n + k) := by
  have hids : ∀ l, (∀ e ∈ l, e ∈ xs ++ ys) → IdsMatch l := by
    intro l h
    cases hid with
    | absent h' => exact .absent fun e he => h' e (h e he)
    | ints f h' => exact .ints f fun e he => h' e (h e he)
    | strs f h' => exact .strs f fun e he => h' e (h e he)
  have key : ∀ l, l ≠ [] → (∀ e ∈ l, e ∈ xs ++ ys) → (batchOf padIdx l).bind (processBatch vocab pad m) =
      some ((l.map (exampleLoss vocab pad m)).sum, (l.map fun e => (learnt e).length).sum) := by
    intro l hl h
    obtain ⟨b, h1, h2⟩ := C100_loss_partial vocab pad m hlm padIdx hp l hl (hids l h) (fun e he => hlen e (h e he))
      (fun e he => hv e (h e he)) (fun e he => hm e (h e he))
    rw [h1, Option.bind_some, h2]
  refine ⟨_, _, _, _, key xs hx (fun e he => List.mem_append_left _ he), key ys hy (fun e he => List.mem_append_right _ he), ?_⟩
  rw [key (xs ++ ys) (by simp [hx]) fun _ h => h]
  simp only [List.map_append, List.sum_append]

/-- **C100 (padding in a response).** Whatever the model, a response that is the `pad_idx` of the model, as the end of sequence is in
some tokenizers, is not learnt, but is counted among the targets. -/
theorem C100_uncounted (vocab : Nat) (m : Model) (hlm : ∀ L ∈ m.layers, L.cross = none) (hm : PadModel m 1) (a p : Nat)
    (ha : a < vocab) (hp : p < vocab) :
    (batchOf p [⟨none, [(a : Int)], [(p : Int)]⟩]).bind (processBatch vocab (some p) m) = some (0, 1) := by
  obtain ⟨b, h1, h2⟩ := C100_loss_partial vocab (some (p : Int)) m hlm p (by omega) [⟨none, [(a : Int)], [(p : Int)]⟩] (by simp)
    (.absent (by simp)) (by simp) (by
      intro e he t ht
      simp only [List.mem_singleton] at he
      subst he
      simp only [List.cons_append, List.nil_append, List.mem_cons, List.not_mem_nil, or_false] at ht
      omega) (by simpa using hm)
  rw [h1, Option.bind_some, h2]
  have e1 : learnt ⟨none, [(a : Int)], [(p : Int)]⟩ = [1] := by
    rfl
  simp only [List.map_cons, List.map_nil, List.sum_cons, List.sum_nil, add_zero, exampleLoss, e1]
  simp [tokenAt]

/-- **C100 (short examples).** An example of a single token is not skipped by the default `min_seq_len` of 1; a batch with such an
example cannot be trained on, whatever else is in it. -/
theorem C100_one_token (vocab : Nat) (pad : Option Int) (m : Model) (padIdx : Int) (bucket : List Example) (e : Example) (he : e ∈ bucket)
    (h1 : (e.src ++ e.tgt).length = 1) (hid : IdsMatch bucket) (hlen : ∀ e ∈ bucket, 1 ≤ (e.src ++ e.tgt).length) :
    ∃ b, batchOf padIdx bucket = some b ∧ processBatch vocab pad m b = none := by
  obtain ⟨b, hb, h2, h3, h4⟩ := batchOf_ok padIdx bucket (List.ne_nil_of_mem he) hid hlen
  refine ⟨b, hb, ?_⟩
  have : trimLens b.seqs b.lens = none := by
    rw [h2, h3]
    simp only [trimLens]
    rw [if_pos]
    simp only [List.any_eq_true, decide_eq_true_eq]
    exact ⟨1, List.mem_map.2 ⟨e, he, h1⟩, rfl⟩
  unfold processBatch SeqBatch.asAutoRegressive
  rw [this]
  rfl

/-- **C100 (ids).** A bucket with an example that has an `id` and one that has none is refused. -/
theorem C100_ids (padIdx : Int) (xs ys : List Example) (a b : Example) (ha : a.id = none) (hb : b.id ≠ none) :
    batchOf padIdx (a :: xs ++ b :: ys) = none ∧ batchOf padIdx (b :: xs ++ a :: ys) = none := by
  have key : ∀ a b : Example, a.id.isSome ≠ b.id.isSome → ∀ xs ys, batchOf padIdx (a :: xs ++ b :: ys) = none := by
    intro a b h xs ys
    have hs : ∃ e, Native.checkSizes ((xs ++ b :: ys).map catSourceAndTarget) [] (catSourceAndTarget a) = .error e := by
      unfold Native.checkSizes
      rw [others_map (k := Native.kind (catSourceAndTarget a)) (xs ++ b :: ys) catSourceAndTarget catSourceAndTarget fun a _ => ⟨rfl, rfl⟩]
      simp only
      rw [if_neg]
      · exact ⟨_, rfl⟩
      · simp only [List.all_eq_true, List.mem_map, decide_eq_true_eq]
        intro h'
        have := h' _ ⟨b, by simp, rfl⟩
        cases h1 : a.id <;> cases h2 : b.id <;> simp [h1, h2] at h <;> simp [catSourceAndTarget, Native.sizeOfData, h1, h2] at this
    obtain ⟨e, hs⟩ := hs
    unfold batchOf
    have : (collater padIdx).call (.list ((a :: xs ++ b :: ys).map catSourceAndTarget)) = .error e := by
      rw [List.cons_append, List.map_cons, Native.Collater.call]
      unfold catSourceAndTarget at hs ⊢
      simp only at hs ⊢
      rw [Native.collateAt]
      simp only [hs]
    rw [this]
  cases hb' : b.id with
  | none => exact absurd hb' hb
  | some x => exact ⟨key a b (by simp [ha, hb']) xs ys, key b a (by simp [ha, hb']) xs ys⟩

/-! ### Examples -/

/-- Two examples of different length: a prompt of two tokens with a response of two, and one of one token with a response of one. -/
def twoChats : List Example := [⟨some (.int 7), [1, 2], [3, 4]⟩, ⟨some (.int 8), [5], [6]⟩]

example : ∃ b x, batchOf 0 twoChats = some b ∧ processBatch 8 (some 0) (averaging (.causal none) .full none) b = some (x, 3) ∧
    b.seqs = .padded 4 [[1, 2, 3, 4], [5, 6, 0, 0]] := by
  have hid : IdsMatch twoChats := .ints (fun e => match e.id with | some (.int n) => n | _ => 0) (by simp [twoChats])
  obtain ⟨b, h1, h2⟩ := C100_loss_partial 8 (some 0) (averaging (.causal none) .full none) (by simp [averaging]) 0 (by decide) twoChats
    (by simp [twoChats]) hid (by simp [twoChats])
    (by simp [twoChats, TokensIn]; omega) (fun e _ => averaging_pad none (by simp) _)
  obtain ⟨b', h3, h4, _⟩ := batchOf_ok 0 twoChats (by simp [twoChats]) hid (by simp [twoChats, toks])
  obtain rfl : b = b' := Option.some.inj (h1.symm.trans h3)
  exact ⟨b, _, h1, h2, h4.trans (by decide)⟩

/-- The second response would be learnt given its prompt. -/
example : exampleLoss 8 (some 0) (averaging (.causal none) .full none) ⟨none, [5], [6]⟩ =
    surprise 8 (averaging (.causal none) .full none) [5] 6 := by
  simp [exampleLoss, learnt, List.range, List.range.loop, List.filter, tokenAt, before]

example : (batchOf 0 [⟨none, [5], [0]⟩]).bind (processBatch 8 (some 0) (averaging (.causal none) .full none)) = some (0, 1) :=
  C100_uncounted 8 _ (by simp [averaging]) (averaging_pad none (by simp) 1) 5 0 (by decide) (by decide)

example : ∃ b, batchOf 0 [⟨none, [5], [6]⟩, ⟨none, [], [2]⟩] = some b ∧
    processBatch 8 (some 0) (averaging (.causal none) .full none) b = none :=
  C100_one_token 8 (some 0) _ 0 _ ⟨none, [], [2]⟩ (by simp) rfl (.absent (by simp)) (by simp)

example : batchOf 0 [⟨none, [5], [6]⟩, ⟨some (.int 1), [1], [2]⟩] = none :=
  (C100_ids 0 [] [] ⟨none, [5], [6]⟩ ⟨some (.int 1), [1], [2]⟩ rfl (by simp)).1

end Fs2.Props
