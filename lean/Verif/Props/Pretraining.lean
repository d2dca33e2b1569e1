import Verif.Datasets.LmTrain
import Verif.Datasets.SftReaderLemmas
import Verif.Pipeline.PackDocs
import Verif.Props.Batch

/-!
# Training a language model on packed text: C109

`createReader W enc sources rank size maxSeqLen maxNumTokens seed` is the pipeline that `LMTrainDataset.create_reader` builds on a rank;
a `DataPipelineReader` reads `pipeline false 0` of it. `W` says what is in the files, `enc` is the tokenizer, and `R` any random number
generator. `modelInput` is what the training unit makes of an element of the pipeline: the input of the model and its targets.
-/

namespace Fs2.Props
open Fs2.Lm Fs2.Batch Source
open Fs2.Sft (Files Origin flat lengths contents dataOf Parses file_pipes filePipe Blows)

/-- At each of its positions a causal model has seen the beginning of a sequence up to there. -/
def contextsIn (s : List Int) : List (List Int) := (List.range s.length).map fun i => s.take (i + 1)

/-- What the model learns from a batch: at each position the tokens seen, and the token to be predicted. -/
def learntPairs (inp tgt : SeqBatch Int) : List (List Int × Int) :=
  ((sequencesOf inp.seqs inp.lens).flatMap contextsIn).zip (flat tgt.seqs)

/-- The tokens of a text from one index up to another, and the one that follows them. -/
def stretch (xs : List Int) (e : Nat × Nat) : List Int × Int := ((xs.drop e.1).take (e.2 - e.1), xs.getD e.2 0)

/-- What batches teach of documents, written one after another. `pos` lists, batch by batch, where in the documents the context of a
prediction begins and where the predicted token is. `L` is `max_seq_len` and `n` is `max_num_tokens`. -/
structure Teaches (L n : Nat) (docs : List (List Int)) (ds : List Data) (pos : List (List (Nat × Nat))) : Prop where
  /-- each batch can be fed to the model and holds exactly `n` predictions and no padding -/
  batches : List.Forall₂ (fun d E => ∃ inp tgt, modelInput d = some (inp, tgt) ∧ E.length = n ∧
    inp.padding = 0 ∧ learntPairs inp tgt = E.map (stretch docs.flatten)) ds pos
  /-- a context is not empty, at most `L` tokens long, and within one document -/
  inside : ∀ E ∈ pos, ∀ e ∈ E, e.1 < e.2 ∧ e.2 < docs.flatten.length ∧ e.2 ≤ e.1 + L ∧ ∀ b, e.1 < b → b < e.2 → ¬ Begins docs b
  /-- it goes back to the beginning of its document, to the first token of the batch, or to where a context of `L` tokens ended -/
  reaches : ∀ E ∈ pos, ∀ e ∈ E, Begins docs e.1 ∨ E.head? = some (e.1, e.1 + 1) ∨ ∃ s, e.1 = s + L ∧ (s, e.1) ∈ E
  /-- the predictions go through the documents in order, none is made twice -/
  once : (pos.flatten.map Prod.snd).Pairwise (· < ·)
  /-- all tokens but the first of each document are predicted, except perhaps some of the last `n - 1` of all -/
  all : ∀ g, 0 < g → ¬ Begins docs g → g + n ≤ docs.flatten.length → g ∈ pos.flatten.map Prod.snd

/-! ### One pack -/

private def entries : Nat → List Nat → List (Nat × Nat)
  | _, [] => []
  | a, n :: ns => ((List.range n).map fun i => (a, a + i + 1)) ++ entries (a + n) ns

private theorem entries_snd : ∀ (a : Nat) (ns : List Nat), (entries a ns).map Prod.snd = (List.range ns.sum).map (a + 1 + ·)
  | a, [] => rfl
  | a, n :: ns => by
    rw [entries, List.map_append, entries_snd (a + n) ns, List.sum_cons, List.range_add, List.map_append, List.map_map, List.map_map]
    congr 1
    · apply List.map_congr_left
      intro i _
      simp only [Function.comp]
      omega
    · apply List.map_congr_left
      intro i _
      simp only [Function.comp]
      omega

private theorem entries_length (a : Nat) (ns : List Nat) : (entries a ns).length = ns.sum := by
  have := congrArg List.length (entries_snd a ns)
  simpa using this

private theorem entries_contexts (xs : List Int) : ∀ (a : Nat) (ns : List Nat) (k : Nat), ns.sum ≤ k → a + k ≤ xs.length →
    (cutAt ns ((xs.drop a).take k)).flatMap contextsIn = (entries a ns).map fun e => (stretch xs e).1
  | a, [], k, _, _ => rfl
  | a, n :: ns, k, h1, h2 => by
    rw [List.sum_cons] at h1
    rw [cutAt, entries, List.flatMap_cons, List.map_append]
    congr 1
    · rw [contextsIn, List.map_map]
      have : (((xs.drop a).take k).take n).length = n := by
        simp only [List.length_take, List.length_drop]
        omega
      rw [this]
      apply List.map_congr_left
      intro i hi
      rw [List.mem_range] at hi
      simp only [Function.comp, stretch]
      rw [List.take_take, List.take_take]
      congr 1
      omega
    · rw [List.drop_take, List.drop_drop, entries_contexts xs (a + n) ns (k - n) (by omega) (by omega)]

private theorem entries_mem {B : Nat → Prop} {L : Nat} : ∀ {a : Nat} {ns : List Nat}, Unbroken B L a ns → (∀ n ∈ ns, 0 < n ∧ n ≤ L) →
    ∀ e ∈ entries a ns, e.1 < e.2 ∧ e.2 ≤ e.1 + L ∧ (∀ b, e.1 < b → b < e.2 → ¬ B b) ∧
      (B e.1 ∨ (entries a ns).head? = some (e.1, e.1 + 1) ∨ ∃ s, e.1 = s + L ∧ (s, e.1) ∈ entries a ns)
  | a, [], _, _, e, he => by cases he
  | a, n :: ns, hu, hl, e, he => by
    obtain ⟨hn0, hnL⟩ := hl n List.mem_cons_self
    rw [entries, List.mem_append] at he
    rcases he with he | he
    · obtain ⟨i, hi, rfl⟩ := List.mem_map.1 he
      rw [List.mem_range] at hi
      refine ⟨by dsimp only; omega, by dsimp only; omega, fun b h1 h2 => hu.1 b h1 (by dsimp only at h2; omega), .inr (.inl ?_)⟩
      obtain ⟨m, rfl⟩ : ∃ m, n = m + 1 := ⟨n - 1, by omega⟩
      rw [entries, List.range_succ_eq_map]
      rfl
    · obtain ⟨h1, h2, h3, h4⟩ := entries_mem hu.2.2 (fun k hk => hl k (List.mem_cons_of_mem _ hk)) e he
      refine ⟨h1, h2, h3, ?_⟩
      rcases h4 with h4 | h4 | ⟨s, h4, h5⟩
      · exact .inl h4
      · have hne : ns ≠ [] := by rintro rfl; cases he
        obtain ⟨m, ms, rfl⟩ := List.exists_cons_of_ne_nil hne
        have hm := (hl m (by simp)).1
        obtain ⟨m, rfl⟩ : ∃ k, m = k + 1 := ⟨m - 1, by omega⟩
        rw [entries, List.range_succ_eq_map] at h4
        have h4 : e.1 = a + n := by
          have := congrArg (Option.map Prod.fst) h4
          simpa using this.symm
        rcases hu.2.1.resolve_left (by simp) with rfl | hb
        · refine .inr (.inr ⟨a, h4, ?_⟩)
          rw [entries, List.mem_append, List.mem_map]
          exact .inl ⟨n - 1, by rw [List.mem_range]; omega, by rw [h4]; congr 1; omega⟩
        · exact .inl (h4 ▸ hb)
      · exact .inr (.inr ⟨s, h4, by rw [entries, List.mem_append]; exact .inr h5⟩)

private theorem unbroken_init {B : Nat → Prop} {L : Nat} : ∀ {a : Nat} {ns : List Nat} {n : Nat}, Unbroken B L a (ns ++ [n]) →
    Unbroken B L a ns
  | _, [], _, _ => trivial
  | a, m :: ns, n, h => ⟨h.1, .inr (h.2.1.resolve_left (by simp)), unbroken_init h.2.2⟩

private theorem unbroken_shrink {B : Nat → Prop} {L : Nat} : ∀ {a : Nat} {ns : List Nat} {n : Nat}, Unbroken B L a (ns ++ [n]) →
    Unbroken B L a (ns ++ [n - 1])
  | _, [], _, h => ⟨fun b h1 h2 => h.1 b h1 (by omega), .inl rfl, trivial⟩
  | a, m :: ns, n, h => ⟨h.1, .inr (h.2.1.resolve_left (by simp)), unbroken_shrink h.2.2⟩

private theorem trim_spec {B : Nat → Prop} {L a n : Nat} {xs : List Int} {lens : List Nat} (hn : 0 < n) (hs : lens.sum = n + 1)
    (hl : ∀ k ∈ lens, 0 < k ∧ k ≤ L) (hu : Unbroken B L a lens) :
    ∃ m, trimLens (.packed xs) lens = some m ∧ m ≠ [] ∧ m.sum = n ∧ (∀ k ∈ m, 0 < k ∧ k ≤ L) ∧ Unbroken B L a m := by
  rcases List.eq_nil_or_concat lens with rfl | ⟨ns, k, rfl⟩
  · simp at hs
  · rw [List.concat_eq_append] at *
    rw [List.sum_append, List.sum_singleton] at hs
    have hk := hl k (by simp)
    have hlast : (ns ++ [k]).getLast? = some k := by simp
    by_cases h1 : k = 1
    · subst h1
      have hne : ns ≠ [] := by rintro rfl; simp at hs; omega
      have hlen : (ns ++ [1]).length ≠ 1 := by
        have := List.length_pos_iff.2 hne
        rw [List.length_append, List.length_singleton]
        omega
      refine ⟨ns, ?_, hne, by omega, fun j hj => hl j (by simp [hj]), unbroken_init hu⟩
      simp only [trimLens, hlast, if_true, if_neg hlen, List.dropLast_concat]
    · refine ⟨ns ++ [k - 1], ?_, by simp, ?_, ?_, unbroken_shrink hu⟩
      · simp only [trimLens, hlast, if_neg h1, List.dropLast_concat]
      · rw [List.sum_append, List.sum_singleton]; omega
      · intro j hj
        rcases List.mem_append.1 hj with hj | hj
        · exact hl j (by simp [hj])
        · rw [List.mem_singleton] at hj
          omega

private theorem create_packed {xs : List Int} {lens : List Nat} (hne : lens ≠ []) (hl : ∀ k ∈ lens, 0 < k) (hs : lens.sum = xs.length) :
    ∃ b, SeqBatch.create (.packed xs) (some lens) none = some b ∧ b.seqs = .packed xs ∧ b.lens = lens ∧ b.mask = none ∧
      b.padding = 0 := by
  have hpos : xs.length ≠ 0 := by
    obtain ⟨k, ks, rfl⟩ := List.exists_cons_of_ne_nil hne
    have := hl k List.mem_cons_self
    rw [List.sum_cons] at hs
    omega
  have h1 : ¬ (some lens = some ([] : List Nat)) := by simpa using hne
  have h2 : lens.any (fun n => decide (n < 1)) = false := by
    rw [List.any_eq_false]
    intro k hk
    have := hl k hk
    simp
    omega
  refine ⟨⟨.packed xs, lens, none, 1, lens.length, lens.sum, lens.sum, xs.length - lens.sum⟩, ?_, rfl, rfl, rfl, by dsimp only; omega⟩
  · simp only [SeqBatch.create, measureLens, if_neg h1, if_neg hpos, Option.getD_some, h2, Bool.false_eq_true, if_false,
      if_neg (show ¬ lens.sum > xs.length by omega)]
    rfl

private theorem lengths_ok (ns : List Nat) : lengths (.list (ns.map fun (n : Nat) => .int n)) = some ns := by
  unfold lengths
  dsimp only
  rw [List.mapM_map]
  induction ns with
  | nil => rfl
  | cons n ns ih =>
    rw [List.mapM_cons, ih]
    simp

private theorem to_batch {c : PackCfg} {q : Pack} (hc : q.toks.length = c.cap) :
    toBatch (packOut c q) = SeqBatch.create (.packed q.toks) (some q.lens) none := by
  have h1 : Native.nodeAt [.key "seqs".toList] (packOut c q) = some (.tensor q.toks) := by
    simp only [packOut, Native.nodeAt]
    rw [Sft.key_hit (by decide), hc, Nat.sub_self]
    simp
  have h2 : Native.nodeAt [.key "seq_lens".toList] (packOut c q) = some (.list (q.lens.map fun (n : Nat) => .int n)) := by
    simp only [packOut, Native.nodeAt]
    rw [Sft.key_miss (by decide), Sft.key_hit (by decide)]
    simp
  unfold toBatch
  rw [h1, h2]
  simp only [Option.bind_some]
  rw [lengths_ok]
  rfl

private theorem pack_teaches {B : Nat → Prop} {L n a : Nat} {xs : List Int} {q : Pack} (hn : 0 < n)
    (hl : (packCfg L n).Lens q) (hc : q.toks.length = n + 1) (hq : q.toks = (xs.drop a).take (n + 1)) (hu : Unbroken B L a q.lens) :
    ∃ E : List (Nat × Nat), (∃ inp tgt, modelInput (packOut (packCfg L n) q) = some (inp, tgt) ∧ E.length = n ∧
        inp.padding = 0 ∧ learntPairs inp tgt = E.map (stretch xs)) ∧
      E.map Prod.snd = (List.range n).map (a + 1 + ·) ∧ a + n < xs.length ∧
      ∀ e ∈ E, e.1 < e.2 ∧ e.2 ≤ e.1 + L ∧ (∀ b, e.1 < b → b < e.2 → ¬ B b) ∧
        (B e.1 ∨ E.head? = some (e.1, e.1 + 1) ∨ ∃ s, e.1 = s + L ∧ (s, e.1) ∈ E) := by
  have hlen : a + n < xs.length := by
    have := congrArg List.length hq
    rw [hc, List.length_take, List.length_drop] at this
    omega
  have hsum : q.lens.sum = n + 1 := hl.1.trans hc
  have hpos : ∀ k ∈ q.lens, 0 < k ∧ k ≤ L := hl.2
  obtain ⟨m, t1, t2, t3, t4, t5⟩ := trim_spec (xs := q.toks) hn hsum hpos hu
  have hne : q.lens ≠ [] := by intro h; rw [h] at hsum; simp at hsum
  obtain ⟨b, b1, b2, b3, b4, -⟩ := create_packed hne (fun k hk => (hpos k hk).1) (hsum.trans hc.symm)
  obtain ⟨inp, i1, i2, i3, -, i4⟩ := create_packed (xs := q.toks.dropLast) t2 (fun k hk => (t4 k hk).1) (by
    rw [List.length_dropLast, hc, t3]; rfl)
  obtain ⟨tgt, g1, g2, g3, -⟩ := create_packed (xs := q.toks.tail) t2 (fun k hk => (t4 k hk).1) (by
    rw [List.length_tail, hc, t3]; rfl)
  have hdl : q.toks.dropLast = (xs.drop a).take n := by
    rw [List.dropLast_eq_take, hc, hq, List.take_take]
    simp
  have htl : q.toks.tail = (xs.drop (a + 1)).take n := by
    rw [hq, ← List.drop_one, List.drop_take, List.drop_drop]
    simp
  have hsnd := entries_snd a m
  rw [t3] at hsnd
  refine ⟨entries a m, ⟨inp, tgt, ?_, by rw [entries_length, t3], i4, ?_⟩, hsnd, hlen, entries_mem t5 t4⟩
  · unfold modelInput
    rw [to_batch (c := packCfg L n) hc, b1, Option.bind_some]
    unfold SeqBatch.asAutoRegressive
    rw [b2, b3, b4, t1]
    simp only [Option.bind_eq_bind, Option.bind_some, Seqs.init, Seqs.rest, Option.map_none, i1, g1]
  · unfold learntPairs
    rw [i2, i3, g2]
    show ((cutAt m q.toks.dropLast).flatMap contextsIn).zip q.toks.tail = _
    rw [hdl, htl, entries_contexts xs a m n (by omega) (by omega)]
    have hr : (xs.drop (a + 1)).take n = (entries a m).map fun e => (stretch xs e).2 := by
      have : (entries a m).map (fun e => (stretch xs e).2) = ((entries a m).map Prod.snd).map fun g => xs.getD g 0 := by
        rw [List.map_map]; rfl
      rw [this, hsnd, List.map_map]
      apply List.ext_getElem
      · simp only [List.length_take, List.length_drop, List.length_map, List.length_range]; omega
      · intro i h1 h2
        simp only [List.length_take, List.length_drop] at h1
        simp only [List.getElem_take, List.getElem_drop, List.getElem_map, List.getElem_range, Function.comp]
        rw [List.getD_eq_getElem?_getD, List.getElem?_eq_getElem (by omega)]
        rfl
    rw [hr, List.zip_map']

/-! ### All packs -/

private theorem follows_teaches {B : Nat → Prop} {L n : Nat} {xs : List Int} (hn : 0 < n) {a : Nat} {packs : List Pack}
    (h : Follows (packCfg L n) B xs a packs) :
    ∃ pos : List (List (Nat × Nat)),
      List.Forall₂ (fun d E => ∃ inp tgt, modelInput d = some (inp, tgt) ∧ E.length = n ∧ inp.padding = 0 ∧ learntPairs inp tgt = E.map (stretch xs))
        (packs.map (packOut (packCfg L n))) pos ∧
      (∀ E ∈ pos, ∀ e ∈ E, e.1 < e.2 ∧ e.2 < xs.length ∧ e.2 ≤ e.1 + L ∧ ∀ b, e.1 < b → b < e.2 → ¬ B b) ∧
      (∀ E ∈ pos, ∀ e ∈ E, B e.1 ∨ E.head? = some (e.1, e.1 + 1) ∨ ∃ s, e.1 = s + L ∧ (s, e.1) ∈ E) ∧
      (pos.flatten.map Prod.snd).Pairwise (· < ·) ∧ (∀ g ∈ pos.flatten.map Prod.snd, a < g) ∧
      (∀ g, a < g → ¬ B g → g + n ≤ xs.length → g ∈ pos.flatten.map Prod.snd) := by
  -- one more pack in front
  have step : ∀ {a a' : Nat} {q : Pack} {qs : List Pack}, (packCfg L n).Lens q → q.toks.length = n + 1 → q.toks = (xs.drop a).take (n + 1) →
      Unbroken B L a q.lens → a + n ≤ a' → (∀ g, a + n < g → g ≤ a' → g < xs.length → B g) →
      (∃ pos : List (List (Nat × Nat)),
        List.Forall₂ (fun d E => ∃ inp tgt, modelInput d = some (inp, tgt) ∧ E.length = n ∧ inp.padding = 0 ∧ learntPairs inp tgt = E.map (stretch xs))
          (qs.map (packOut (packCfg L n))) pos ∧
        (∀ E ∈ pos, ∀ e ∈ E, e.1 < e.2 ∧ e.2 < xs.length ∧ e.2 ≤ e.1 + L ∧ ∀ b, e.1 < b → b < e.2 → ¬ B b) ∧
        (∀ E ∈ pos, ∀ e ∈ E, B e.1 ∨ E.head? = some (e.1, e.1 + 1) ∨ ∃ s, e.1 = s + L ∧ (s, e.1) ∈ E) ∧
        (pos.flatten.map Prod.snd).Pairwise (· < ·) ∧ (∀ g ∈ pos.flatten.map Prod.snd, a' < g) ∧
        (∀ g, a' < g → ¬ B g → g + n ≤ xs.length → g ∈ pos.flatten.map Prod.snd)) →
      ∃ pos : List (List (Nat × Nat)),
        List.Forall₂ (fun d E => ∃ inp tgt, modelInput d = some (inp, tgt) ∧ E.length = n ∧ inp.padding = 0 ∧ learntPairs inp tgt = E.map (stretch xs))
          ((q :: qs).map (packOut (packCfg L n))) pos ∧
        (∀ E ∈ pos, ∀ e ∈ E, e.1 < e.2 ∧ e.2 < xs.length ∧ e.2 ≤ e.1 + L ∧ ∀ b, e.1 < b → b < e.2 → ¬ B b) ∧
        (∀ E ∈ pos, ∀ e ∈ E, B e.1 ∨ E.head? = some (e.1, e.1 + 1) ∨ ∃ s, e.1 = s + L ∧ (s, e.1) ∈ E) ∧
        (pos.flatten.map Prod.snd).Pairwise (· < ·) ∧ (∀ g ∈ pos.flatten.map Prod.snd, a < g) ∧
        (∀ g, a < g → ¬ B g → g + n ≤ xs.length → g ∈ pos.flatten.map Prod.snd) := by
    intro a a' q qs hl hc hq hu ha hgap ⟨pos, p1, p2, p3, p4, p5, p6⟩
    obtain ⟨E, e1, e2, e3, e4⟩ := pack_teaches hn hl hc hq hu
    have hE : ∀ g, g ∈ E.map Prod.snd ↔ a < g ∧ g ≤ a + n := by
      intro g
      rw [e2, List.mem_map]
      constructor
      · rintro ⟨i, hi, rfl⟩
        rw [List.mem_range] at hi
        omega
      · intro hg
        exact ⟨g - (a + 1), by rw [List.mem_range]; omega, by omega⟩
    refine ⟨E :: pos, .cons e1 p1, ?_, ?_, ?_, ?_, ?_⟩
    · intro F hF e he
      rcases List.mem_cons.1 hF with rfl | hF
      · obtain ⟨x1, x2, x3, -⟩ := e4 e he
        have := (hE e.2).1 (List.mem_map_of_mem he)
        exact ⟨x1, by omega, x2, x3⟩
      · exact p2 F hF e he
    · intro F hF e he
      rcases List.mem_cons.1 hF with rfl | hF
      · exact (e4 e he).2.2.2
      · exact p3 F hF e he
    · rw [List.flatten_cons, List.map_append, List.pairwise_append]
      refine ⟨?_, p4, ?_⟩
      · rw [e2]
        exact List.Pairwise.map _ (fun x y h => by omega) List.pairwise_lt_range
      · intro x hx y hy
        have := (hE x).1 hx
        have := p5 y hy
        omega
    · intro g hg
      rw [List.flatten_cons, List.map_append, List.mem_append] at hg
      rcases hg with hg | hg
      · exact ((hE g).1 hg).1
      · have := p5 g hg
        omega
    · intro g h1 h2 h3
      rw [List.flatten_cons, List.map_append, List.mem_append]
      by_cases hg : g ≤ a + n
      · exact .inl ((hE g).2 ⟨h1, hg⟩)
      · by_cases hg' : g ≤ a'
        · exact absurd (hgap g (by omega) hg' (by omega)) h2
        · exact .inr (p6 g (by omega) h2 h3)
  induction h with
  | done h =>
    refine ⟨[], .nil, by simp, by simp, by simp, by simp, ?_⟩
    intro g h1 _ h3
    have : (packCfg L n).cap = n + 1 := rfl
    omega
  | @whole a q qs hl hc hq hu hb _ ih =>
    refine step (a' := a + (n + 1)) hl hc hq hu (by omega) ?_ ih
    intro g h1 h2 h3
    obtain rfl : g = a + (n + 1) := by omega
    exact hb h3
  | cut hl hc hq hu _ ih => exact step hl hc hq hu (Nat.le_refl _) (fun g h1 h2 => by omega) ih

/-! ### The reader -/

/-- An example that has a text. -/
def HasText (d : Data) (t : String) : Prop := ∃ fields, d = .dict fields ∧ fields.lookup "text" = some (.str t)

/-- **C109.** Whatever examples are sampled, in whatever order: the batches made of them teach the model every token of every text from
the tokens before it in the same text. -/
theorem C109_packed (R : Rng) (enc : String → List Int) (L n : Nat) (p : Pipe) (xs : List Data) (texts : List String) (hL : 0 < L)
    (hn : 0 < n) (hp : (p.denote R).Yields (p.denote R).init xs) (ht : List.Forall₂ HasText xs texts) :
    ∃ ds pos, (pipeline false 0 ((packed enc L n p).denote R)).Yields (pipeline false 0 ((packed enc L n p).denote R)).init ds ∧
      Teaches L n (texts.map enc) ds pos := by
  let g : Data → Data := fun d => match encode enc d with
    | .ok x => x
    | .error _ => d
  have hg : ∀ x t, HasText x t → encode enc x = .ok (.tensor (enc t)) := by
    rintro x t ⟨fields, rfl, h⟩
    simp [encode, h]
  have hmap : xs.map g = (texts.map enc).map .tensor := by
    clear hp
    induction ht with
    | nil => rfl
    | cons h _ ih =>
      rw [List.map_cons, List.map_cons, List.map_cons, ih]
      congr 1
      simp only [g, hg _ _ h]
  have henc : ∀ x ∈ xs, encode enc x = .ok (g x) := by
    clear hp hmap
    induction ht with
    | nil => simp
    | cons h _ ih =>
      intro y hy
      rcases List.mem_cons.1 hy with rfl | hy
      · simp only [g, hg _ _ h]
      · exact ih y hy
  have h1 := map_yields_on henc hp
  rw [hmap] at h1
  obtain ⟨packs, h2, h3⟩ := pack_follows (c := packCfg L n) rfl rfl hL (show 1 < n + 1 by omega) h1
  obtain ⟨pos, q1, q2, q3, q4, -, q6⟩ := follows_teaches hn h2
  exact ⟨_, pos, pipeline_yields_init h3, ⟨q1, q2, q3, q4, fun g h1 h2 h3 => q6 g h1 h2 h3⟩⟩

/-- A line of a file holds a text. -/
def LineText (W : Files) (line : Data) (t : String) : Prop := ∃ d, W.loads line = .ok d ∧ HasText d t

/-- The reader of a rank gives these batches. -/
def lmReads (R : Rng) (W : Files) (enc : String → List Int) (sources : List Origin) (rank size L n seed : Nat) (ds : List Data) : Prop :=
  ∃ P, createReader W enc sources rank size L n seed = .ok P ∧
    (pipeline false 0 (P.denote R)).Yields (pipeline false 0 (P.denote R)).init ds

private theorem files_pipe (R : Rng) (files : List Data) (rank size : Nat) (hr : rank < size) :
    ((filesPipe files rank size).denote R).Yields ((filesPipe files rank size).denote R).init (shardOf rank size files) ∧
    ((filesPipe files rank size).denote R).Rereads (fun _ => True) (· = shardOf rank size files) ∧
    ((filesPipe files rank size).denote R).finitude = .finite := by
  have hy := listSource_yields_from files 0 (Nat.zero_le _)
  rw [List.drop_zero] at hy
  unfold filesPipe
  by_cases h : size > 1
  · rw [if_pos h]
    exact ⟨shard_gives hr hy, (rereads_shard hr (rereads_list files)).weaken (by rintro ys ⟨_, rfl, rfl⟩; rfl), rfl⟩
  · rw [if_neg h]
    obtain rfl : size = 1 := by omega
    obtain rfl : rank = 0 := by omega
    have : shardOf 0 1 files = files := by
      apply List.ext_getElem?
      intro k
      rw [shardOf_get (by omega)]
      simp
    rw [this]
    exact ⟨hy, rereads_list files, rfl⟩

/-- Every pass over the files of a rank gives the same. -/
private theorem path_again (R : Rng) {W : Files} {files : List Data} (h : Parses W files) (rank size : Nat) (hr : rank < size) (P : Pipe)
    (hP : pathPipe W files rank size = .ok P) :
    (pipeline false 0 (P.denote R)).Passes (pipeline false 0 (P.denote R)).init (fun _ => contents W (shardOf rank size files)) ∧
      (pipeline false 0 (P.denote R)).finitude ≠ .pseudoInfinite := by
  unfold pathPipe at hP
  split at hP
  · cases hP
  · cases hP
    obtain ⟨h1, h2, h3⟩ := files_pipe R files rank size hr
    have hp : Parses W (shardOf rank size files) := by
      intro f hf
      apply h f
      unfold shardOf at hf
      rw [List.mem_filterMap] at hf
      obtain ⟨k, -, hk⟩ := hf
      exact List.mem_of_getElem? hk
    have hy := yield_yields (file_pipes R hp) (s := (yieldFrom ⟨fun x => pipeline false 0 ((filePipe W x).denote R), fun _ => none⟩
      ((filesPipe files rank size).denote R)).init) (.inl rfl) h1
    have hrr := rereads_yield (file_pipes R hp) h2
    obtain ⟨es, e0, e1, e2⟩ := (rereads_pipeline (max := 0) hrr).passes
      (s := (pipeline false 0 (Pipe.denote R (.yieldFrom (fun _ => none) (fun _ => 0) (filePipe W) (filesPipe files rank size)))).init)
      ⟨_, _, rfl⟩ (pipeline_yields_init hy)
    have hall : es = fun _ => contents W (shardOf rank size files) := by
      funext k
      cases k with
      | zero => exact e0
      | succ k => exact e1 k
    rw [hall] at e2
    refine ⟨e2, ?_⟩
    show ((filesPipe files rank size).denote R).finitude ≠ _
    rw [h3]
    simp

private theorem one_pipe (R : Rng) (P : Pipe) : (fun i : Fin 1 => pipeline false 0 (([P].get i).denote R)) = fun _ => pipeline false 0 (P.denote R) := by
  funext i
  obtain rfl : i = 0 := Subsingleton.elim _ _
  rfl

private theorem source_reads (R : Rng) {W : Files} {files : List Data} (h : Parses W files) (weight : Rat) (rank size seed : Nat)
    (hr : rank < size) (hne : contents W (shardOf rank size files) ≠ []) (P : Pipe) (hP : pathPipe W files rank size = .ok P) :
    ((samplePipe [P] [weight] seed).denote R).Yields ((samplePipe [P] [weight] seed).denote R).init (contents W (shardOf rank size files)) := by
  obtain ⟨h1, h2⟩ := path_again R h rank size hr P hP
  have := sample_single R [weight] seed rfl h2 (fun _ => hne) h1
  rw [← one_pipe] at this
  exact this

private theorem texts_of {W : Files} {files : List Data} {text : Data → String}
    (h : ∀ f ∈ files, ∀ l ∈ W.lines f, LineText W l (text l)) :
    Parses W files ∧ List.Forall₂ HasText (contents W files) ((files.flatMap W.lines).map text) := by
  have each : ∀ f ∈ files, ∀ l ∈ W.lines f, W.loads l = .ok (dataOf W l) ∧ HasText (dataOf W l) (text l) := by
    intro f hf l hl
    obtain ⟨d, h1, h2⟩ := h f hf l hl
    have : dataOf W l = d := by rw [dataOf, h1]
    rw [this]
    exact ⟨h1, h2⟩
  refine ⟨fun f hf l hl => (each f hf l hl).1, ?_⟩
  have : contents W files = (files.flatMap W.lines).map (dataOf W) := by rw [contents, List.map_flatMap]
  rw [this]
  have all : ∀ l ∈ files.flatMap W.lines, HasText (dataOf W l) (text l) := by
    intro l hl
    obtain ⟨f, hf, hl⟩ := List.mem_flatMap.1 hl
    exact (each f hf l hl).2
  clear this each
  generalize files.flatMap W.lines = ls at all
  induction ls with
  | nil => exact .nil
  | cons l ls ih => exact .cons (all l List.mem_cons_self) (ih fun x hx => all x (List.mem_cons_of_mem _ hx))

private theorem shard_mem {rank size : Nat} {files : List Data} {f : Data} (h : f ∈ shardOf rank size files) : f ∈ files := by
  unfold shardOf at h
  rw [List.mem_filterMap] at h
  obtain ⟨k, -, hk⟩ := h
  exact List.mem_of_getElem? hk

/-- The texts of a rank: those of the files `rank`, `rank + size`, `rank + 2 * size` and so on, in this order. -/
def ownTexts (W : Files) (text : Data → String) (files : List Data) (rank size : Nat) : List String :=
  ((shardOf rank size files).flatMap W.lines).map text

/-- **C109.** An epoch of training on one source. Every text is read by exactly one rank; and the batches of a rank teach the model every
token of its texts from the tokens before it in the same text. Each rank has to have a text. -/
theorem C109_epoch (R : Rng) (W : Files) (enc : String → List Int) (files : List Data) (weight : Rat) (text : Data → String)
    (htext : ∀ f ∈ files, ∀ l ∈ W.lines f, LineText W l (text l)) (size L n seed : Nat) (hsize : 0 < size) (hfiles : size ≤ files.length)
    (hsome : ∀ r, r < size → ∃ k f, files[k * size + r]? = some f ∧ W.lines f ≠ []) (hL : 0 < L) (hn : 0 < n) :
    ((List.range size).flatMap fun r => ownTexts W text files r size).Perm ((files.flatMap W.lines).map text) ∧
      ∀ r, r < size → ∃ ds pos, lmReads R W enc [⟨files, weight⟩] r size L n seed ds ∧
        Teaches L n ((ownTexts W text files r size).map enc) ds pos := by
  constructor
  · unfold ownTexts
    rw [← List.map_flatMap, ← List.flatMap_assoc]
    exact ((perm_shards size hsize files).flatMap_right _).map _
  · intro r hr
    obtain ⟨hp, -⟩ := texts_of htext
    obtain ⟨-, ht⟩ := texts_of (W := W) (files := shardOf r size files) (text := text) fun f hf => htext f (shard_mem hf)
    obtain ⟨P, hP⟩ : ∃ P, pathPipe W files r size = .ok P := ⟨_, if_neg (by omega)⟩
    have hne : contents W (shardOf r size files) ≠ [] := by
      obtain ⟨k, f, h1, h2⟩ := hsome r hr
      obtain ⟨l, ls, hl⟩ := List.exists_cons_of_ne_nil h2
      rw [← shardOf_get hr] at h1
      apply List.ne_nil_of_mem (a := dataOf W l)
      exact List.mem_flatMap.2 ⟨f, List.mem_of_getElem? h1, List.mem_map.2 ⟨l, by simp [hl], rfl⟩⟩
    have hy := source_reads R hp weight r size seed hr hne P hP
    obtain ⟨ds, pos, h1, h2⟩ := C109_packed R enc L n _ _ _ hL hn hy ht
    refine ⟨ds, pos, ⟨_, ?_, h1⟩, h2⟩
    simp only [createReader, List.mapM_cons, List.mapM_nil, hP]
    rfl

/-- A source with fewer files than there are ranks is refused, on all ranks alike, and nothing else is. -/
theorem C109_few_files (W : Files) (enc : String → List Int) (sources : List Origin) (rank size L n seed : Nat) :
    createReader W enc sources rank size L n seed = .error .fewFiles ↔ ∃ s ∈ sources, s.files.length < size := by
  have key : ∀ ss : List Origin, (∃ s ∈ ss, s.files.length < size) ∧ ss.mapM (fun s => pathPipe W s.files rank size) = .error .fewFiles ∨
      (¬ ∃ s ∈ ss, s.files.length < size) ∧ ∃ ps, ss.mapM (fun s => pathPipe W s.files rank size) = .ok ps := by
    intro ss
    induction ss with
    | nil => exact .inr ⟨by simp, [], rfl⟩
    | cons s ss ih =>
      rw [List.mapM_cons]
      by_cases hs : s.files.length < size
      · refine .inl ⟨⟨s, by simp, hs⟩, ?_⟩
        rw [pathPipe, if_pos hs]
        rfl
      · rw [pathPipe, if_neg hs]
        rcases ih with ⟨⟨t, h1, h2⟩, h3⟩ | ⟨h1, ps, h2⟩
        · refine .inl ⟨⟨t, by simp [h1], h2⟩, ?_⟩
          rw [h3]
          rfl
        · refine .inr ⟨?_, _, by rw [h2]; rfl⟩
          rintro ⟨t, h3, h4⟩
          rcases List.mem_cons.1 h3 with rfl | h3
          · exact hs h4
          · exact h1 ⟨t, h3, h4⟩
  unfold createReader
  rcases key sources with ⟨h1, h2⟩ | ⟨h1, ps, h2⟩
  · rw [h2]
    exact ⟨fun _ => h1, fun _ => rfl⟩
  · rw [h2]
    exact ⟨fun h => (by cases h), fun h => absurd h h1⟩

/-- **C109, violation.** A rank whose files are all empty does not read an empty epoch: its first call raises “The data pipeline is empty
and cannot be sampled.”. -/
theorem C109_empty_rank (R : Rng) (W : Files) (enc : String → List Int) (files : List Data) (weight : Rat) (rank size L n seed : Nat)
    (hr : rank < size) (hfiles : size ≤ files.length) (hparse : ∀ f ∈ files, ∀ l ∈ W.lines f, ∃ d, W.loads l = .ok d)
    (hnone : ∀ k f, files[k * size + rank]? = some f → W.lines f = []) :
    ∃ P s, createReader W enc [⟨files, weight⟩] rank size L n seed = .ok P ∧
      (P.denote R).next (P.denote R).init = some (.err sampleEmptyErr, s) := by
  have hp : Parses W files := by
    intro f hf l hl
    obtain ⟨d, hd⟩ := hparse f hf l hl
    rw [dataOf, hd]
  obtain ⟨P, hP⟩ : ∃ P, pathPipe W files rank size = .ok P := ⟨_, if_neg (by omega)⟩
  obtain ⟨h1, -⟩ := path_again R hp rank size hr P hP
  have hnil : contents W (shardOf rank size files) = [] := by
    rw [contents, List.flatMap_eq_nil_iff]
    intro f hf
    obtain ⟨k, hk⟩ := List.mem_iff_getElem?.1 hf
    rw [shardOf_get hr] at hk
    rw [hnone k f hk]
    rfl
  rw [hnil] at h1
  have h2 := Blows.sample R h1 rfl rfl [weight] seed
  rw [← one_pipe] at h2
  obtain ⟨s, h3⟩ := h2.map (encode enc)
  refine ⟨packed enc L n (samplePipe [P] [weight] seed), ⟨none, s⟩, ?_, ?_⟩
  · simp only [createReader, List.mapM_cons, List.mapM_nil, hP]
    rfl
  · show packLoop _ (packCfg L n) ⟨false, [], []⟩ ⟨none, _⟩ = _
    rw [packLoop]
    have h3 : (Pipe.denote R (.map (encode enc) (samplePipe [P] [weight] seed))).next
        (Pipe.denote R (.map (encode enc) (samplePipe [P] [weight] seed))).init = some (.err sampleEmptyErr, s) := h3
    simp only [h3]
    rfl

/-! ### Concrete cases -/

/-- Two files with a line each, and an empty one. -/
def twoChunks : Files where
  lines
    | .str "a" => [.int 0]
    | .str "b" => [.int 1]
    | _ => []
  loads
    | .int n => .ok (.dict [("text", .str (if n = 0 then "x" else "y"))])
    | _ => .error ⟨false, "no JSON"⟩

def chunkText : Data → String
  | .int n => if n = 0 then "x" else "y"
  | _ => ""

def xyTok (t : String) : List Int := if t = "x" then [1, 2] else [3, 4]

theorem twoChunks_hold : ∀ f ∈ [Data.str "a", .str "b"], ∀ l ∈ twoChunks.lines f, LineText twoChunks l (chunkText l) := by
  intro f hf l hl
  have hl : l = .int 0 ∨ l = .int 1 := by
    simp only [List.mem_cons, List.not_mem_nil, or_false] at hf
    rcases hf with rfl | rfl <;> simp [twoChunks] at hl <;> tauto
  rcases hl with rfl | rfl <;> exact ⟨_, rfl, _, rfl, by simp [chunkText]⟩

private theorem three_predictions {L : Nat} (hL : 2 ≤ L) {ds : List Data} {pos : List (List (Nat × Nat))}
    (h : Teaches L 3 [[1, 2], [3, 4]] ds pos) :
    ∃ d ∈ ds, ∃ inp tgt, modelInput d = some (inp, tgt) ∧ learntPairs inp tgt = [([1], 2), ([1, 2], 3), ([3], 4)] := by
  have hb : ∀ b, Begins [[1, 2], [3, 4]] b ↔ b = 0 ∨ b = 2 := by
    intro b
    rw [begins_cons, begins_cons]
    simp only [List.length_cons, List.length_nil, begins_nil, and_false, or_false]
    omega
  have h1 := h.all 1 (by omega) (by rw [hb]; omega) (by simp)
  have hne : pos ≠ [] := by rintro rfl; simp at h1
  obtain ⟨E, pos, rfl⟩ := List.exists_cons_of_ne_nil hne
  cases hd : ds with
  | nil => rw [hd] at h; cases h.batches
  | cons d ds' =>
    subst hd
    have hbat := h.batches
    rw [List.forall₂_cons] at hbat
    obtain ⟨⟨inp, tgt, a1, a2, a3⟩, -⟩ := hbat
    refine ⟨d, by simp, inp, tgt, a1, ?_⟩
    obtain ⟨e1, e2, e3, rfl⟩ : ∃ e1 e2 e3, E = [e1, e2, e3] := by
      match E, a2 with
      | [e1, e2, e3], _ => exact ⟨e1, e2, e3, rfl⟩
    obtain ⟨s1, g1⟩ := e1
    obtain ⟨s2, g2⟩ := e2
    obtain ⟨s3, g3⟩ := e3
    have hon := h.once
    rw [List.flatten_cons, List.map_append, List.pairwise_append] at hon
    have hon := hon.1
    simp only [List.map_cons, List.map_nil, List.pairwise_cons, List.mem_cons, List.not_mem_nil, or_false, forall_eq_or_imp, forall_eq] at hon
    have i1 := h.inside _ List.mem_cons_self (s1, g1) (by simp)
    have i2 := h.inside _ List.mem_cons_self (s2, g2) (by simp)
    have i3 := h.inside _ List.mem_cons_self (s3, g3) (by simp)
    have r2 := h.reaches _ List.mem_cons_self (s2, g2) (by simp)
    simp only [hb, List.flatten_cons, List.flatten_nil, List.length_append, List.length_cons, List.length_nil] at i1 i2 i3 r2
    have hg1 : g1 = 1 := by omega
    have hg2 : g2 = 2 := by omega
    have hg3 : g3 = 3 := by omega
    subst hg1 hg2 hg3
    have hs1 : s1 = 0 := by omega
    subst hs1
    have hs2 : s2 = 0 := by
      rcases r2 with r | r | ⟨s, r, -⟩
      · omega
      · simp at r; omega
      · omega
    have hs3 : s3 = 2 := by
      have := i3.2.2.2 2
      omega
    subst hs2 hs3
    rw [a3.2]
    decide

/-- **C109, violation.** Where a text begins inside a batch its first token is predicted from the text before it, which has nothing to do
with it. Here the texts are `1 2` and `3 4`, and the model is taught that `3` follows `1 2`. -/
theorem C109_crosses (R : Rng) (seed : Nat) : ∃ ds d inp tgt,
    lmReads R twoChunks xyTok [⟨[.str "a", .str "b"], 1⟩] 0 1 8 3 seed ds ∧ d ∈ ds ∧ modelInput d = some (inp, tgt) ∧
      learntPairs inp tgt = [([1], 2), ([1, 2], 3), ([3], 4)] := by
  obtain ⟨-, h2⟩ := C109_epoch R twoChunks xyTok [.str "a", .str "b"] 1 chunkText twoChunks_hold 1 8 3 seed (by omega) (by simp)
    (fun r hr => ⟨0, .str "a", by obtain rfl : r = 0 := by omega
                                  rfl, by simp [twoChunks]⟩) (by omega) (by omega)
  obtain ⟨ds, pos, h3, h4⟩ := h2 0 (by omega)
  have : (ownTexts twoChunks chunkText [.str "a", .str "b"] 0 1).map xyTok = [[1, 2], [3, 4]] := by decide +kernel
  rw [this] at h4
  obtain ⟨d, hd, inp, tgt, h5, h6⟩ := three_predictions (by omega) h4
  exact ⟨ds, d, inp, tgt, h3, hd, h5, h6⟩

private theorem six_predictions {ds : List Data} {pos : List (List (Nat × Nat))} (h : Teaches 4 6 [[0, 1, 2, 3, 4, 5, 6]] ds pos) :
    ∃ d ∈ ds, ∃ inp tgt, modelInput d = some (inp, tgt) ∧
      learntPairs inp tgt = [([0], 1), ([0, 1], 2), ([0, 1, 2], 3), ([0, 1, 2, 3], 4), ([4], 5), ([4, 5], 6)] := by
  have hb : ∀ b, Begins [[0, 1, 2, 3, 4, 5, 6]] b ↔ b = 0 := by
    intro b
    rw [begins_cons]
    simp [begins_nil]
  have h1 := h.all 1 (by omega) (by rw [hb]; omega) (by simp)
  have hne : pos ≠ [] := by rintro rfl; simp at h1
  obtain ⟨E, pos, rfl⟩ := List.exists_cons_of_ne_nil hne
  cases hd : ds with
  | nil => rw [hd] at h; cases h.batches
  | cons d ds' =>
    subst hd
    have hbat := h.batches
    rw [List.forall₂_cons] at hbat
    obtain ⟨⟨inp, tgt, a1, a2, a3⟩, -⟩ := hbat
    refine ⟨d, by simp, inp, tgt, a1, ?_⟩
    obtain ⟨e1, e2, e3, e4, e5, e6, rfl⟩ : ∃ e1 e2 e3 e4 e5 e6, E = [e1, e2, e3, e4, e5, e6] := by
      match E, a2 with
      | [e1, e2, e3, e4, e5, e6], _ => exact ⟨e1, e2, e3, e4, e5, e6, rfl⟩
    have hon := h.once
    rw [List.flatten_cons, List.map_append, List.pairwise_append] at hon
    have hon := hon.1
    simp only [List.map_cons, List.map_nil, List.pairwise_cons, List.mem_cons, List.not_mem_nil, or_false, forall_eq_or_imp, forall_eq] at hon
    have hi := h.inside _ List.mem_cons_self
    have hr := h.reaches _ List.mem_cons_self
    simp only [hb, List.mem_cons, List.not_mem_nil, or_false, forall_eq_or_imp, forall_eq, List.head?_cons, Option.some.injEq,
      List.flatten_cons, List.flatten_nil, List.append_nil, List.length_cons, List.length_nil] at hi hr
    obtain ⟨s1, g1⟩ := e1
    obtain ⟨s2, g2⟩ := e2
    obtain ⟨s3, g3⟩ := e3
    obtain ⟨s4, g4⟩ := e4
    obtain ⟨s5, g5⟩ := e5
    obtain ⟨s6, g6⟩ := e6
    simp only [Prod.mk.injEq] at hon hi hr
    obtain ⟨i1, i2, i3, i4, i5, i6⟩ := hi
    have q1 : g1 = 1 := by omega
    have q2 : g2 = 2 := by omega
    have q3 : g3 = 3 := by omega
    have q4 : g4 = 4 := by omega
    have q5 : g5 = 5 := by omega
    have q6 : g6 = 6 := by omega
    subst q1 q2 q3 q4 q5 q6
    have z1 : s1 = 0 := by omega
    subst z1
    obtain ⟨-, r2, r3, r4, r5, r6⟩ := hr
    have z2 : s2 = 0 := by
      rcases r2 with r | r | ⟨s, r, -⟩ <;> omega
    have z3 : s3 = 0 := by
      rcases r3 with r | r | ⟨s, r, -⟩ <;> omega
    have z4 : s4 = 0 := by
      rcases r4 with r | r | ⟨s, r, -⟩ <;> omega
    have z5 : s5 = 4 := by
      rcases r5 with r | r | ⟨s, r, -⟩ <;> omega
    have z6 : s6 = 4 := by
      rcases r6 with r | r | ⟨s, r, t⟩ <;> omega
    subst z2 z3 z4 z5 z6
    rw [a3.2]
    decide

/-- **C109, violation.** `pack` documents that with `max_seq_len = 4` the sequence `0 1 2 3 4 5 6` is cut into `0 1 2 3` and `3 4 5 6`. If
the batch is not full after four tokens it is cut into `0 1 2 3` and `4 5 6`: `5` is predicted from `4` alone. -/
theorem C109_documented_cut (R : Rng) (enc : String → List Int) (h : enc "t" = [0, 1, 2, 3, 4, 5, 6]) : ∃ ds d inp tgt,
    (pipeline false 0 ((packed enc 4 6 (.list [.dict [("text", .str "t")]])).denote R)).Yields
      (pipeline false 0 ((packed enc 4 6 (.list [.dict [("text", .str "t")]])).denote R)).init ds ∧ d ∈ ds ∧
    modelInput d = some (inp, tgt) ∧
    learntPairs inp tgt = [([0], 1), ([0, 1], 2), ([0, 1, 2], 3), ([0, 1, 2, 3], 4), ([4], 5), ([4, 5], 6)] := by
  have hy := listSource_yields_from [Data.dict [("text", .str "t")]] 0 (Nat.zero_le _)
  rw [List.drop_zero] at hy
  obtain ⟨ds, pos, h1, h2⟩ := C109_packed R enc 4 6 (.list [.dict [("text", .str "t")]]) _ ["t"] (by omega) (by omega) hy
    (.cons ⟨_, rfl, rfl⟩ .nil)
  rw [List.map_cons, List.map_nil, h] at h2
  obtain ⟨d, hd, inp, tgt, h3, h4⟩ := six_predictions h2
  exact ⟨ds, d, inp, tgt, h1, hd, h3, h4⟩

/-- The hypotheses of `C109_epoch` on two ranks: each has its own text. -/
example (R : Rng) (seed : Nat) : ∃ ds pos, lmReads R twoChunks xyTok [⟨[.str "a", .str "b"], 1⟩] 1 2 8 1 seed ds ∧
    Teaches 8 1 [[3, 4]] ds pos ∧ pos = [[(0, 1)]] := by
  obtain ⟨-, h2⟩ := C109_epoch R twoChunks xyTok [.str "a", .str "b"] 1 chunkText twoChunks_hold 2 8 1 seed (by omega) (by simp)
    (fun r hr => by
      have : r = 0 ∨ r = 1 := by omega
      rcases this with rfl | rfl
      · exact ⟨0, .str "a", rfl, by simp [twoChunks]⟩
      · exact ⟨0, .str "b", rfl, by simp [twoChunks]⟩) (by omega) (by omega)
  obtain ⟨ds, pos, h3, h4⟩ := h2 1 (by omega)
  have : (ownTexts twoChunks chunkText [.str "a", .str "b"] 1 2).map xyTok = [[3, 4]] := by decide +kernel
  rw [this] at h4
  refine ⟨ds, pos, h3, h4, ?_⟩
  have h1 := h4.all 1 (by omega) (by
    rw [begins_cons]
    simp [begins_nil]) (by simp)
  have hone : ∀ E ∈ pos, E = [(0, 1)] := by
    intro E hE
    have hlen : E.length = 1 := by
      obtain ⟨k, hk⟩ := List.mem_iff_getElem?.1 hE
      have hb := h4.batches
      have hlt := (List.getElem?_eq_some_iff.1 hk)
      obtain ⟨hlt, hke⟩ := hlt
      have := (List.forall₂_iff_get.1 hb).2 k (by rw [(List.forall₂_iff_get.1 hb).1]; exact hlt) hlt
      obtain ⟨_, _, -, h, -⟩ := this
      rw [← hke]
      exact h
    match E, hlen with
    | [(a, b)], _ =>
      have := h4.inside _ hE (a, b) (by simp)
      simp at this
      have h1 : a = 0 := by omega
      have h2 : b = 1 := by omega
      rw [h1, h2]
  have hon := h4.once
  match pos, hone, h1, hon with
  | [], _, h1, _ => simp at h1
  | [E], hone, _, _ => rw [hone E (by simp)]
  | E :: F :: pos, hone, _, hon =>
    rw [hone E (by simp), hone F (by simp)] at hon
    simp at hon

/-- A third rank has no file; with an empty file it has no text. -/
example (seed : Nat) : createReader twoChunks xyTok [⟨[.str "a", .str "b"], 1⟩] 0 3 8 3 seed = .error .fewFiles :=
  (C109_few_files ..).2 ⟨_, List.mem_cons_self, by simp⟩

example (R : Rng) (seed : Nat) : ∃ P s, createReader twoChunks xyTok [⟨[.str "a", .str "b", .str "c"], 1⟩] 2 3 8 3 seed = .ok P ∧
    (P.denote R).next (P.denote R).init = some (.err sampleEmptyErr, s) := by
  refine C109_empty_rank R twoChunks xyTok _ 1 2 3 8 3 seed (by omega) (by simp) ?_ ?_
  · intro f hf l hl
    simp only [List.mem_cons, List.not_mem_nil, or_false] at hf
    rcases hf with rfl | rfl | rfl
    · obtain ⟨d, h, -⟩ := twoChunks_hold _ (by simp) l hl; exact ⟨d, h⟩
    · obtain ⟨d, h, -⟩ := twoChunks_hold _ (by simp) l hl; exact ⟨d, h⟩
    · simp [twoChunks] at hl
  · intro k f hf
    cases k with
    | zero =>
      have : f = .str "c" := by simpa using hf.symm
      subst this
      rfl
    | succ k =>
      rw [List.getElem?_eq_none (by simp; omega)] at hf
      cases hf

end Fs2.Props
