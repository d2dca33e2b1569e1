import Verif.Nn.ContrastLemmas

/-!
# C104: Pretraining of wav2vec 2.0

`Alone op s t` of `Verif/Nn/SpeechSpec.lean` says what an operation makes of a recording alone; `Carries W rows l S` that a batch
holds the recordings `S`, with anything as padding.
-/

namespace Fs2.Props
open Fs2.Nn Fs2.Enc Fs2.Speech Fs2.Contrast
open Fs2.Dec hiding width GoodLayer

/-- `torch.rand` gives numbers from zero to one, `topk` the largest ones. -/
structure GoodMaskDraws (d : MaskDraws) : Prop where
  rand : ∀ i, 0 ≤ d.rand i ∧ d.rand i < 1
  vals : ∀ r i, 0 ≤ d.vals r i
  topk : IsTopK d.topk

/-- `randint` stays below its bound. -/
structure GoodDraws (d : Draws) : Prop where
  temporal : GoodMaskDraws d.temporal
  spatial : GoodMaskDraws d.spatial
  randint : ∀ n r c, 0 < n → d.randint n r c < n

/-- Spans of the given length can be drawn with the given probability in a row of length `n`: at least one, and at least the minimum. -/
def Spannable (span : Nat) (prob : ℚ) (least : ℤ) (n : Nat) : Prop :=
  span < n ∧ (span : ℚ) ≤ prob * ((n : ℚ) - 1) ∧ (least : ℚ) * span ≤ prob * ((n : ℚ) - 1)

/-- The masker is well configured. -/
structure GoodMasker (k : Masker) : Prop where
  span : 2 ≤ k.span
  prob : 0 < k.prob ∧ k.prob ≤ 1
  spatial : k.spatialProb ≤ 0 ∨
    (0 < k.spatialSpan ∧ k.spatialProb ≤ 1 ∧ Spannable k.spatialSpan k.spatialProb k.minSpatial k.modelDim)

/-- A recording as the encoder sees it: the frames `P` are replaced by the embedding of the masker, then the features `Z` by zero. -/
def covered (k : Masker) (P : List Nat) (Z : Nat → Bool) (f : List Vec) : List Vec :=
  f.mapIdx fun i v => fun j => if Z j then 0 else if i ∈ P then k.embed j else v j

private theorem masker_ok (k : Masker) (hk : GoodMasker k) (a b : MaskDraws) (ha : GoodMaskDraws a) (hb : GoodMaskDraws b) {W : Nat}
    {rows : Batch Vec} {l : Layout} {F : Batch Vec} (hne : F ≠ []) (hc : Carries W rows l F)
    (hs : ∀ f ∈ F, Spannable k.span k.prob k.minSpans f.length) :
    ∃ (M : Mask) (spans : Nat) (Z : Nat → Nat → Bool) (rows' : Batch Vec), k.forward a b rows l = some (rows', M) ∧
      GoodMask M (F.map List.length) W k.span spans ∧
      Carries W rows' l (F.mapIdx fun r f => covered k (maskedAt M W r) (Z r) f) := by
  obtain ⟨f1, f2, f3, f4, _⟩ := hc.facts
  have hrne : rows ≠ [] := by
    rintro rfl
    have := hc.num
    exact hne (List.length_eq_zero_iff.1 this.symm)
  have hwid : width rows = W := by
    obtain ⟨row, rest, rfl⟩ := List.exists_cons_of_ne_nil hrne
    simp [width, hc.wide row (by simp)]
  have hlens : l.seqLens.map Int.toNat = F.map List.length := by
    rw [f4, List.map_map]
    congr 1
  have hall : ∀ n ∈ F.map List.length, ∃ f ∈ F, f.length = n := by
    intro n hn
    exact List.mem_map.1 hn
  obtain ⟨M, spans, e, hM, _⟩ := C53_mask_partial rows.length W k.span k.prob (F.map List.length) k.minSpans a.rand a.vals a.topk ha.topk
    ha.rand ha.vals (by have := hk.span; omega) hk.prob.1.le hk.prob.2 (by simp [hc.num]) (by simpa using hne)
    (by
      intro n hn
      obtain ⟨f, hf, rfl⟩ := hall n hn
      exact ⟨(hs f hf).1, (f2 f hf).2⟩)
    (by
      intro n hn
      obtain ⟨f, hf, rfl⟩ := hall n hn
      exact (hs f hf).2.2)
    (by
      intro n hn
      obtain ⟨f, hf, rfl⟩ := hall n hn
      exact (hs f hf).2.1)
  have hrun : ∃ (Z : Nat → Nat → Bool), k.forward a b rows l =
      some (rows.mapIdx fun r row => row.mapIdx fun i v => fun j => if Z r j then 0 else (if isSet M r i then k.embed else v) j, M) := by
    unfold Masker.forward
    rw [if_neg (by simp [f3]), hwid, hlens, e, Option.bind_some]
    by_cases hsp : k.spatialProb > 0
    · simp only [hsp, if_true]
      rcases hk.spatial with h | ⟨h1, h2, h3⟩
      · exact absurd hsp (by linarith)
      · have hnone : computeRowMask (hideFrames k.embed M rows).length k.modelDim k.spatialSpan k.spatialProb none k.minSpatial b.rand b.vals
            b.topk = computeRowMask (hideFrames k.embed M rows).length k.modelDim k.spatialSpan k.spatialProb
            (some (List.replicate (hideFrames k.embed M rows).length k.modelDim)) k.minSpatial b.rand b.vals b.topk := by
          have h4 := h3.1
          have h5 : ¬ (List.replicate (hideFrames k.embed M rows).length k.modelDim).any (fun n => decide (k.spatialSpan ≥ n)) = true := by
            simp only [List.any_eq_true, not_exists, not_and, decide_eq_true_eq, List.mem_replicate]
            rintro n ⟨_, rfl⟩
            omega
          simp only [computeRowMask, List.length_replicate, ne_eq, not_true_eq_false, if_false]
          rw [if_neg (by omega), if_neg h5]
        have hmem : ∀ n ∈ List.replicate (hideFrames k.embed M rows).length k.modelDim, n = k.modelDim :=
          fun n hn => (List.mem_replicate.1 hn).2
        obtain ⟨M', _, e', _⟩ := C53_mask_partial (hideFrames k.embed M rows).length k.modelDim k.spatialSpan k.spatialProb
          (List.replicate (hideFrames k.embed M rows).length k.modelDim) k.minSpatial b.rand b.vals b.topk hb.topk hb.rand hb.vals h1
          (le_of_lt hsp) h2 (by simp) (by simpa [hideFrames] using hrne)
          (fun n hn => by rw [hmem n hn]; exact ⟨h3.1, le_rfl⟩) (fun n hn => by rw [hmem n hn]; exact h3.2.2)
          (fun n hn => by rw [hmem n hn]; exact h3.2.1)
        refine ⟨fun r j => isSet M' r j, ?_⟩
        rw [hnone, e']
        simp only [Option.map_some, hideFeatures, hideFrames, Option.some.injEq, Prod.mk.injEq, and_true]
        apply List.ext_getElem
        · simp
        · intro i _ _
          simp only [List.getElem_mapIdx]
          apply List.ext_getElem
          · simp
          · intro j _ _
            simp
    · refine ⟨fun _ _ => false, ?_⟩
      simp only [hsp, if_false, hideFrames, Bool.false_eq_true]
  obtain ⟨Z, hrun⟩ := hrun
  refine ⟨M, spans, Z, _, hrun, hM, ?_⟩
  refine ⟨by simp [hc.num], ?_, ?_, ?_⟩
  · intro r s hs'
    rw [List.getElem?_mapIdx, Option.map_eq_some_iff] at hs'
    obtain ⟨f, hf, rfl⟩ := hs'
    obtain ⟨row, h1, h2⟩ := hc.begins r f hf
    refine ⟨_, by rw [List.getElem?_mapIdx, h1]; rfl, ?_⟩
    have hfl := f2 f (List.mem_of_getElem? hf)
    have hrl := hc.wide row (List.mem_of_getElem? h1)
    apply List.ext_getElem
    · simp [covered]; omega
    · intro i a1 a2
      simp only [covered, List.length_mapIdx] at a2
      have hv : row[i]'(by omega) = f[i] := by
        have : (row.take f.length)[i]? = f[i]? := by rw [h2]
        rw [List.getElem?_take, if_pos a2, List.getElem?_eq_getElem (by omega), List.getElem?_eq_getElem a2, Option.some.injEq] at this
        exact this
      have hmem : i ∈ maskedAt M W r ↔ isSet M r i = true := by
        simp only [maskedAt, List.mem_filter, List.mem_range]
        have : i < W := by omega
        simp [this]
      have hcov : (covered k (maskedAt M W r) (Z r) f)[i]'(by simpa [covered] using a2) =
          fun j => if Z r j then 0 else if i ∈ maskedAt M W r then k.embed j else f[i] j := by
        simp [covered]
      rw [hcov]
      simp only [List.getElem_take, List.getElem_mapIdx, hv, hmem]
      funext j
      split
      · rfl
      · split <;> rfl
  · intro row' hr
    obtain ⟨r, hr', rfl⟩ := List.mem_mapIdx.1 hr
    simp [hc.wide _ (List.getElem_mem hr')]
  · have : (F.mapIdx fun r f => covered k (maskedAt M W r) (Z r) f).map (fun s => (s.length : Int)) = F.map fun s => (s.length : Int) := by
      apply List.ext_getElem <;> simp [covered]
    rw [this, List.length_mapIdx]
    exact hc.layout

/-- The extractor and the norm after it. -/
def featuresOf (m : Wav2Vec2) : Frontend Vec := ⟨m.extractor, m.norm, .none, id⟩

/-- Everything from the masked features to the encoder output: position encoder, norm, encoder. -/
def contextOf (m : Wav2Vec2) : AsrModel := ⟨⟨.none, id, m.pos, m.post⟩, m.encoder, id⟩

/-- The quantized and projected vector of a frame: from each codebook one entry, one after the other; in evaluation mode one with the
largest score. -/
def IsCode (m : Wav2Vec2) (training : Bool) (v code : Vec) : Prop :=
  ∃ best : Nat → Nat, (∀ g, best g < m.quantizer.numEntries ∧
      (training = false → ∀ e < m.quantizer.numEntries, m.quantizer.scores v g e ≤ m.quantizer.scores v g (best g))) ∧
    code = m.targetProj fun j => m.quantizer.entries (j / m.quantizer.entryDim * m.quantizer.numEntries + best (j / m.quantizer.entryDim))
      (j % m.quantizer.entryDim)

/-- The other position that a random number stands for: those before `k` as they are, those from `k` on moved by one. -/
def otherThan (k x : Nat) : Nat := if x < k then x else x + 1

open Classical in
/-- The logits of one recording `s`. Some of its frames are hidden, `P` in increasing order. The encoder sees the recording without
them, alone. For each of them it is asked which vector belongs there: the code of the hidden frame, which is the first candidate, or
one of those of other hidden frames of the same recording. A candidate that equals the right one is left out. -/
def Task (m : Wav2Vec2) (d : Draws) (r : Nat) (s : List Vec) (P : List Nat) (logits : List (List (Option ℝ))) : Prop :=
  ∃ (f c codes : List Vec) (Z : Nat → Bool), Alone (featuresOf m).forward s f ∧
    P.Pairwise (· < ·) ∧ (∀ p ∈ P, p < f.length) ∧
    Alone (contextOf m).forward (covered m.masker P Z (f.map m.proj)) c ∧
    codes.length = P.length ∧ logits.length = P.length ∧
    ∀ (k p : Nat), P[k]? = some p → ∃ v y code row, f[p]? = some v ∧ c[p]? = some y ∧ codes[k]? = some code ∧ logits[k]? = some row ∧
      IsCode m d.noise.isSome v code ∧ row.length = m.numDistractors + 1 ∧
      row[0]? = some (some (m.sim (m.finalProj y) code / m.logitTemp)) ∧
      ∀ i < m.numDistractors, ∃ k' code', k' = otherThan k (d.randint (P.length - 1) r (k * m.numDistractors + i)) ∧ k' ≠ k ∧
        codes[k']? = some code' ∧
        row[i + 1]? = some (if ∀ j < m.finalDim, code j = code' j then none else some (m.sim (m.finalProj y) code' / m.logitTemp))

/-- What a logit contributes to a softmax; minus infinity contributes nothing. -/
noncomputable def weightOf (y : Option ℝ) : ℝ := (y.map Real.exp).getD 0

/-- Minus the logarithm of the probability of the first candidate. -/
noncomputable def missed (row : List (Option ℝ)) : ℝ := - Real.log (weightOf (row.headD none) / (row.map weightOf).sum)

private theorem cross_missed (x : ℝ) (row : List (Option ℝ)) : crossEntropy0 (some x :: row) = missed (some x :: row) := by
  have hpos : 0 < ((some x :: row).map weightOf).sum := by
    have : 0 ≤ (row.map weightOf).sum := List.sum_nonneg (by
      intro y hy
      obtain ⟨z, _, rfl⟩ := List.mem_map.1 hy
      cases z with
      | none => simp [weightOf]
      | some z => simpa [weightOf] using (Real.exp_pos z).le)
    have := Real.exp_pos x
    simp only [List.map_cons, List.sum_cons, weightOf, Option.map_some, Option.getD_some] at *
    linarith
  have hw : ∀ L : List (Option ℝ), (L.map fun y => match y with | none => (0 : ℝ) | some y => Real.exp y) = L.map weightOf := by
    intro L
    apply List.map_congr_left
    intro y _
    cases y <;> simp [weightOf]
  have e : crossEntropy0 (some x :: row) = - (x - Real.log (((some x :: row).map weightOf).sum)) := by
    rw [← hw]
    rfl
  rw [e, missed, List.headD_cons, Real.log_div (by simp [weightOf]) hpos.ne']
  simp [weightOf]

private theorem swap_sum (L : List (List (List (Option ℝ)))) (n : Nat) (h : ∀ row ∈ L, row.length = n) :
    (((List.range n).flatMap fun s => L.map fun row => (row[s]?).getD []).map crossEntropy0).sum =
      (L.map fun row => (row.map crossEntropy0).sum).sum := by
  have h1 : ∀ (is : List Nat), ((is.flatMap fun s => L.map fun row => (row[s]?).getD []).map crossEntropy0).sum =
      (L.map fun row => (is.map fun s => crossEntropy0 ((row[s]?).getD [])).sum).sum := by
    intro is
    induction is with
    | nil => simp
    | cons i is ih =>
      rw [List.flatMap_cons, List.map_append, List.sum_append, ih, List.map_map]
      simp only [List.map_cons, List.sum_cons]
      rw [← List.sum_map_add]
      rfl
  rw [h1]
  congr 1
  apply List.map_congr_left
  intro row hr
  congr 1
  rw [← h row hr]
  apply List.ext_getElem
  · simp
  · intro i a1 a2
    simp only [List.length_map] at a2
    simp [List.getElem?_eq_getElem a2]

private theorem contrast_ok (m : Wav2Vec2) (d : Draws) (hd : ∀ n r c, 0 < n → d.randint n r c < n) (output : Batch Vec) (M : Mask) {n : Nat} (hn : 2 ≤ n)
    {seqs targets : Batch Vec} (he : extractMasked M output = some seqs) (h1 : seqs.length = targets.length) (h0 : targets ≠ [])
    (h2 : ∀ x ∈ seqs, x.length = n) (h3 : ∀ x ∈ targets, x.length = n) :
    ∃ L, m.contrast d output targets M = some L ∧ L.length = targets.length ∧ (∀ x ∈ L, x.length = n) ∧
      ∀ (r : Nat) xs ts, seqs[r]? = some xs → targets[r]? = some ts → ∃ (codes : List Vec) (lr : List (List (Option ℝ))), L[r]? = some lr ∧ codes.length = n ∧
        (∀ k v, ts[k]? = some v → codes[k]? = some (m.targetProj (m.quantizer.quantize d.noise (r * n + k) v))) ∧
        ∀ k y code, xs[k]? = some y → codes[k]? = some code → ∃ ds, lr[k]? = some (m.logits (m.finalProj y) code ds) ∧
          ds.length = m.numDistractors ∧
          ∀ i < m.numDistractors, ds[i]? = codes[otherThan k (d.randint (n - 1) r (k * m.numDistractors + i))]? := by
  obtain ⟨cod, hcod⟩ : ∃ cod, cod = targets.mapIdx fun r row => row.mapIdx fun i v =>
    m.targetProj (m.quantizer.quantize d.noise (r * n + i) v) := ⟨_, rfl⟩
  have hw : width targets = n := by
    obtain ⟨row, rest, rfl⟩ := List.exists_cons_of_ne_nil h0
    simp [width, h3 row (by simp)]
  have hcl : cod.length = targets.length := by rw [hcod]; simp
  have hcn : ∀ x ∈ cod, x.length = n := by
    intro x hx
    rw [hcod] at hx
    obtain ⟨r, hr, rfl⟩ := List.mem_mapIdx.1 hx
    simp [h3 _ (List.getElem_mem hr)]
  have hcw : width cod = n := by
    obtain ⟨row, rest, e⟩ := List.exists_cons_of_ne_nil (show cod ≠ [] by
      intro h
      rw [h] at hcl
      exact h0 (List.length_eq_zero_iff.1 hcl.symm))
    rw [e] at hcn ⊢
    simp [width, hcn row (by simp)]
  unfold Wav2Vec2.contrast sampleDistractors
  simp only [he, Option.bind_some, hw, ← hcod, hcw, show ¬ n ≤ 1 by omega, if_false, Option.map_some, Option.some.injEq, exists_eq_left']
  refine ⟨by simp [h1, hcl], ?_, ?_⟩
  · intro x hx
    obtain ⟨i, hi, rfl⟩ := List.getElem_of_mem hx
    simp only [List.length_zipWith, List.length_map, List.length_range] at hi
    simp [hcn _ (List.getElem_mem (show i < cod.length by omega)), h2 _ (List.getElem_mem (show i < seqs.length by omega))]
  · intro r xs ts hxs hts
    obtain ⟨hr, hr2⟩ := List.getElem?_eq_some_iff.1 hts
    have hrc : r < cod.length := by omega
    have hxn := h2 xs (List.mem_of_getElem? hxs)
    have hrx : cod[r] = ts.mapIdx fun i v => m.targetProj (m.quantizer.quantize d.noise (r * n + i) v) := by
      simp [hcod, hr2]
    have hlen := hcn _ (List.getElem_mem hrc)
    refine ⟨cod[r], _, by
      simp only [List.getElem?_zipWith, List.getElem?_map, hxs, List.getElem?_eq_getElem hrc, Option.map_some]
      rw [List.getElem?_range (by omega)]
      rfl, hlen, ?_, ?_⟩
    · intro k v hv
      rw [hrx, List.getElem?_mapIdx, hv]
      rfl
    · intro k y code hy hcode
      have hk : k < n := by
        have := (List.getElem?_eq_some_iff.1 hcode).1
        omega
      refine ⟨_, by
        simp only [List.getElem?_zipWith, List.getElem?_map, hy, Option.map_some, List.zip]
        rw [hcode, List.getElem?_range (by omega)]
        rfl, by simp, ?_⟩
      intro i hi
      have hx := hd (n - 1) r (k * m.numDistractors + i) (by omega)
      have hdiv : (k * m.numDistractors + i) / m.numDistractors = k := by
        rw [Nat.mul_comm, Nat.mul_add_div (by omega), Nat.div_eq_of_lt hi, Nat.add_zero]
      have ho : (if d.randint (n - 1) r (k * m.numDistractors + i) ≥ k then d.randint (n - 1) r (k * m.numDistractors + i) + 1
          else d.randint (n - 1) r (k * m.numDistractors + i)) = otherThan k (d.randint (n - 1) r (k * m.numDistractors + i)) := by
        unfold otherThan
        split <;> split <;> omega
      have hol : otherThan k (d.randint (n - 1) r (k * m.numDistractors + i)) < n := by
        unfold otherThan
        split <;> omega
      rw [List.getElem?_map, List.getElem?_range hi, Option.map_some]
      simp only [hdiv, ho]
      rw [flatten_get hcn hrc hol, List.getElem?_eq_getElem (by omega), Option.getD_some]

private theorem seq_lens {W : Nat} {rows : Batch Vec} {l : Layout} {S : Batch Vec} (h : Carries W rows l S) (r : Nat) (s : List Vec)
    (hs : S[r]? = some s) : (l.seqLens.map Int.toNat)[r]? = some s.length := by
  rw [h.facts.2.2.2.1, List.map_map, List.getElem?_map, hs]
  rfl

private theorem context_eq (m : Wav2Vec2) (rows : Batch Vec) (l : Layout) : (contextOf m).forward rows l =
    (m.pos.forward rows l).bind fun seqs => m.encoder.forward (seqs.map (List.map m.post)) l := by
  simp only [AsrModel.forward, contextOf, Frontend.forward, Extractor.forward, Option.bind_some, List.map_id_fun, List.map_id]
  cases m.pos.forward rows l with
  | none => rfl
  | some seqs =>
    simp only [Option.map_some, Option.bind_some]
    cases m.encoder.forward (seqs.map (List.map m.post)) l <;> simp

private theorem features_eq (m : Wav2Vec2) (rows : Batch Vec) (l : Layout) : (featuresOf m).forward rows l =
    (m.extractor.forward rows l).map fun x => (x.1.map (List.map m.norm), x.2) := by
  simp only [featuresOf, Frontend.forward, SpeechPos.forward, Option.map_some, List.map_id_fun, List.map_id]
  cases m.extractor.forward rows l <;> rfl

private theorem layout_width {W W' : Nat} {rows rows' : Batch Vec} {l : Layout} {S S' : Batch Vec} (h : Carries W rows l S) (h' : Carries W' rows' l S')
    (hne : S ≠ []) : W = W' := by
  obtain ⟨s, rest, rfl⟩ := List.exists_cons_of_ne_nil hne
  obtain ⟨p, h1, h2, _⟩ := h.facts.2.2.2.2.2.2 0 s rfl
  have hl : l.seqLens.length = S'.length := by rw [h'.facts.2.2.2.1]; simp
  have hl' : l.seqLens.length = rest.length + 1 := by rw [h.facts.2.2.2.1]; simp
  obtain ⟨s', rest', rfl⟩ := List.exists_cons_of_ne_nil (show S' ≠ [] by rintro rfl; rw [hl'] at hl; simp at hl)
  obtain ⟨p', h1', h2', _⟩ := h'.facts.2.2.2.2.2.2 0 s' rfl
  rw [h1, Option.some.injEq] at h1'
  rw [← h2, ← h2', h1']

/-- **C104 (task).** For every batch of recordings that the extractor and the encoder accept and that are long enough for the masker,
the forward pass succeeds. In every recording the same number of frames is hidden, at least a span; the logits of each recording are
those of its own task, computed from this recording alone. The contrastive loss is the sum over all hidden frames of minus the
logarithm of the probability of the right candidate, the number of targets is their number, and the loss is the weighted sum.

Missing for the full property: extractors with group normalization (`Steady`), and the penalty, see `C104_penalty_padding`. -/
theorem C104_task_partial (m : Wav2Vec2) (d : Draws) (hd : GoodDraws d) (hk : GoodMasker m.masker)
    (hq : ∀ v, m.quantizer.argmax v < m.quantizer.numEntries ∧ ∀ e < m.quantizer.numEntries, v e ≤ v (m.quantizer.argmax v))
    (hF : Steady (featuresOf m)) (hC : Steady (contextOf m).frontend) (hE : ∀ L ∈ m.encoder.layers, Enc.GoodLayer L)
    {W : Nat} {rows : Batch Vec} {l : Layout} {S : Batch Vec} (hne : S ≠ []) (hc : Carries W rows l S)
    (hS : ∀ s ∈ S, ∃ f, Alone (featuresOf m).forward s f ∧ Spannable m.masker.span m.masker.prob m.masker.minSpans f.length ∧
      ∀ x : List Vec, x.length = f.length → ∃ c, Alone (contextOf m).forward x c) (a b : ℝ) :
    ∃ (res : Result) (n : Nat) (P : List (List Nat)), m.forward d a b rows l = some res ∧ m.masker.span ≤ n ∧
      res.logits.length = S.length ∧ P.length = S.length ∧
      (∀ (r : Nat) s p logits, S[r]? = some s → P[r]? = some p → res.logits[r]? = some logits → p.length = n ∧ Task m d r s p logits) ∧
      res.numTargets = S.length * n ∧
      res.contrastive = (res.logits.map fun logits => (logits.map missed).sum).sum ∧
      res.aggregate = res.contrastive + a * res.diversity + b * res.penalty := by
  classical
  obtain ⟨g, hg⟩ := frontend_acts (featuresOf m) hF
  obtain ⟨W1, frows, l1, F, e1, c1, n1, al1⟩ := (hg.batch hne hc).1 fun s hs => (hS s hs).imp fun _ h => h.1
  have hFS : ∀ f ∈ F, ∃ s ∈ S, Alone (featuresOf m).forward s f := by
    intro f hf
    obtain ⟨i, hi, rfl⟩ := List.getElem_of_mem hf
    exact ⟨S[i]'(by omega), List.getElem_mem _, al1 i _ _ (List.getElem?_eq_getElem _) (List.getElem?_eq_getElem hi)⟩
  have hFall : ∀ f ∈ F, Spannable m.masker.span m.masker.prob m.masker.minSpans f.length ∧
      ∀ x : List Vec, x.length = f.length → ∃ c, Alone (contextOf m).forward x c := by
    intro f hf
    obtain ⟨s, hs, ha⟩ := hFS f hf
    obtain ⟨f', ha', h⟩ := hS s hs
    have : 1 ≤ s.length := (hc.facts.2.1 s hs).1
    rw [hg.alone this] at ha ha'
    rw [ha, Option.some.injEq] at ha'
    rw [ha']
    exact h
  have hFne : F ≠ [] := by
    rintro rfl
    exact hne (List.length_eq_zero_iff.1 n1.symm)
  rw [features_eq, Option.map_eq_some_iff] at e1
  obtain ⟨⟨raw, l1'⟩, ex, e1⟩ := e1
  simp only [Prod.mk.injEq] at e1
  obtain ⟨e1, rfl⟩ := e1
  have c1p : Carries W1 (frows.map (List.map m.proj)) l1' (F.map (List.map m.proj)) := by
    have := carries_map (R := F) (F := id) (by simpa using c1) m.proj
    simpa using this
  obtain ⟨M, spans, Z, mrows, e2, hM, c2⟩ := masker_ok m.masker hk d.temporal d.spatial hd.temporal hd.spatial (F := F.map (List.map m.proj))
    (by simpa using hFne) c1p (by
      intro f hf
      obtain ⟨f, hf', rfl⟩ := List.mem_map.1 hf
      rw [List.length_map]
      exact (hFall f hf').1)
  have hlens : (F.map (List.map m.proj)).map List.length = F.map List.length := by simp [Function.comp_def]
  rw [hlens] at hM
  have hlne : F.map List.length ≠ [] := by simpa using hFne
  obtain ⟨n, hn1, hn2⟩ := masked_good hM
  have hn : 2 ≤ n := le_trans hk.span hn1
  obtain ⟨W3, crows, l3, C, e3, c3, n3, al3⟩ := (C98_asr (contextOf m) hC hE (by simpa using hFne) c2).1 (by
    intro x hx
    obtain ⟨r, hr, rfl⟩ := List.mem_mapIdx.1 hx
    simp only [List.length_map] at hr
    refine (hFall F[r] (List.getElem_mem hr)).2 _ ?_
    simp [covered])
  rw [context_eq, Option.bind_eq_some_iff] at e3
  obtain ⟨seqs, e4, e5⟩ := e3
  have hl3 : l3 = l1' := by
    simp only [Encoder.forward, Option.map_eq_some_iff, Prod.mk.injEq] at e5
    obtain ⟨_, _, _, h⟩ := e5
    exact h.symm
  subst hl3
  have hW3 : W3 = W1 := layout_width c3 c1 (by
    rintro rfl
    simp at n3
    exact hFne (List.length_eq_zero_iff.1 n3.symm))
  subst hW3
  simp only [List.length_mapIdx, List.length_map] at n3
  have x1 := extract_good hM hlne (rows := frows) (by simp [c1.num]) c1.wide
  have x2 := extract_good hM hlne (rows := crows) (by simp [c3.num, n3]) c3.wide
  have part : ∀ (rws : Batch Vec), rws.length = F.length → (∀ row ∈ rws, row.length = W3) →
      ∀ x ∈ rws.mapIdx fun r row => (maskedAt M W3 r).filterMap (row[·]?), x.length = n := by
    intro rws h1 h2 x hx
    obtain ⟨r, hr, rfl⟩ := List.mem_mapIdx.1 hx
    have := hn2 r (F[r]'(by omega)).length (by rw [List.getElem?_map, List.getElem?_eq_getElem (by omega)]; rfl)
    rw [select_len, this.1]
    intro i hi
    rw [h2 _ (List.getElem_mem hr)]
    exact (this.2 i hi).2
  obtain ⟨L, e6, hL1, hL2, hL3⟩ := contrast_ok m d hd.randint crows M hn x2
    (targets := frows.mapIdx fun r row => (maskedAt M W3 r).filterMap (row[·]?)) (by simp [c1.num, c3.num, n3])
    (by
      intro h
      have := congrArg List.length h
      simp only [List.length_mapIdx, List.length_nil, c1.num] at this
      exact hFne (List.length_eq_zero_iff.1 this))
    (part crows (by rw [c3.num, n3]) c3.wide) (part frows c1.num c1.wide)
  simp only [List.length_mapIdx, c1.num, n1] at hL1
  have hLw : width L = n := by
    obtain ⟨row, rest, rfl⟩ := List.exists_cons_of_ne_nil (show L ≠ [] by
      rintro rfl
      exact hne (List.length_eq_zero_iff.1 hL1.symm))
    simp [width, hL2 row (by simp)]
  refine ⟨_, n, (List.range S.length).map fun r => maskedAt M W3 r, by
    unfold Wav2Vec2.forward Wav2Vec2.features
    simp only [ex, Option.bind_some, e1, e2, e4, x1, e5, Option.map_some, e6]
    rfl, hn1, hL1, by simp, ?_, ?_, ?_, rfl⟩
  · intro r s p logits hs hp hlog
    rw [List.getElem?_map, Option.map_eq_some_iff] at hp
    obtain ⟨r', hr', rfl⟩ := hp
    have hr'' := List.getElem?_eq_some_iff.1 hr'
    obtain ⟨hr1, hr2⟩ := hr''
    simp only [List.length_range] at hr1
    simp only [List.getElem_range] at hr2
    subst hr2
    have hrF : r < F.length := by omega
    have hrC : r < C.length := by omega
    obtain ⟨hm1, hm2⟩ := hn2 r F[r].length (by rw [List.getElem?_map, List.getElem?_eq_getElem hrF]; rfl)
    refine ⟨hm1, ?_⟩
    obtain ⟨frow, hf1, hf2⟩ := c1.begins r F[r] (List.getElem?_eq_getElem hrF)
    obtain ⟨crow, hc1, hc2⟩ := c3.begins r C[r] (List.getElem?_eq_getElem hrC)
    obtain ⟨codes, lr, b1, b2, b3, b4⟩ := hL3 r _ _ (by rw [List.getElem?_mapIdx, hc1]; rfl) (by rw [List.getElem?_mapIdx, hf1]; rfl)
    rw [b1, Option.some.injEq] at hlog
    subst hlog
    have hlr := hL2 lr (List.mem_of_getElem? b1)
    have hCl : C[r].length = F[r].length := by
      have h1 := seq_lens c3 r _ (List.getElem?_eq_getElem hrC)
      have h2 := seq_lens c1 r _ (List.getElem?_eq_getElem hrF)
      rw [h1, Option.some.injEq] at h2
      exact h2
    refine ⟨F[r], C[r], codes, Z r, al1 r s _ hs (List.getElem?_eq_getElem hrF), ?_, fun p hp => (hm2 p hp).1, ?_, by rw [b2, hm1],
      by rw [hlr, hm1], ?_⟩
    · exact List.pairwise_lt_range.filter _
    · refine al3 r _ _ ?_ (List.getElem?_eq_getElem hrC)
      rw [List.getElem?_mapIdx, List.getElem?_map, List.getElem?_eq_getElem hrF]
      rfl
    · intro k p hp
      have hpm := hm2 p (List.mem_of_getElem? hp)
      have hfp : frow[p]? = some (F[r][p]'hpm.1) := by
        have : (frow.take F[r].length)[p]? = F[r][p]? := by rw [hf2]
        rw [List.getElem?_take, if_pos hpm.1, List.getElem?_eq_getElem hpm.1] at this
        exact this
      have hpC : p < C[r].length := hCl ▸ hpm.1
      have hcp : crow[p]? = some (C[r][p]'hpC) := by
        have : (crow.take C[r].length)[p]? = C[r][p]? := by rw [hc2]
        rw [List.getElem?_take, if_pos hpC, List.getElem?_eq_getElem hpC] at this
        exact this
      have hcode := b3 k _ (by
        rw [select_get _ _ (fun i hi => by rw [c1.wide _ (List.mem_of_getElem? hf1)]; exact (hm2 i hi).2), hp, Option.bind_some, hfp])
      obtain ⟨ds, d1, d2, d3⟩ := b4 k _ _ (by
        rw [select_get _ _ (fun i hi => by rw [c3.wide _ (List.mem_of_getElem? hc1)]; exact (hm2 i hi).2), hp, Option.bind_some, hcp]) hcode
      refine ⟨_, _, _, _, List.getElem?_eq_getElem hpm.1, List.getElem?_eq_getElem hpC, hcode, d1, ?_, by simp [Wav2Vec2.logits, d2],
        by simp [Wav2Vec2.logits], ?_⟩
      · refine ⟨fun g => m.quantizer.argmax fun e => m.quantizer.scores (F[r][p]'hpm.1) g e +
          (match d.noise with | none => 0 | some noise => noise (r * n + k) g e), ?_, rfl⟩
        intro g
        refine ⟨(hq _).1, ?_⟩
        intro hno e he
        cases hno' : d.noise with
        | some x => rw [hno'] at hno; simp at hno
        | none =>
          have := (hq fun e => m.quantizer.scores (F[r][p]'hpm.1) g e + 0).2 e he
          simpa using this
      · intro i hi
        have hx := hd.randint (n - 1) r (k * m.numDistractors + i) (by omega)
        have hkn : k < n := by
          have := (List.getElem?_eq_some_iff.1 hp).1
          omega
        have ho : otherThan k (d.randint (n - 1) r (k * m.numDistractors + i)) < codes.length := by
          rw [b2]
          unfold otherThan
          split <;> omega
        refine ⟨_, codes[otherThan k (d.randint (n - 1) r (k * m.numDistractors + i))], by rw [hm1], ?_, List.getElem?_eq_getElem ho, ?_⟩
        · unfold otherThan
          split <;> omega
        · have := d3 i hi
          rw [List.getElem?_eq_getElem ho] at this
          simp only [Wav2Vec2.logits, List.getElem?_cons_succ, List.getElem?_map, this, Option.map_some]
  · show L.length * width L = _
    rw [hL1, hLw]
  · show contrastiveLoss L = _
    unfold contrastiveLoss
    rw [hLw, swap_sum L n hL2]
    congr 1
    apply List.map_congr_left
    intro lr hlr
    congr 1
    apply List.map_congr_left
    intro row hrow
    obtain ⟨r, hr, rfl⟩ := List.getElem_of_mem hlr
    obtain ⟨k, hk', rfl⟩ := List.getElem_of_mem hrow
    have hrF : r < F.length := by omega
    have hkn : k < n := by rw [← hL2 _ hlr]; exact hk'
    obtain ⟨frow, hf1, _⟩ := c1.begins r F[r] (List.getElem?_eq_getElem hrF)
    obtain ⟨crow, hc1, _⟩ := c3.begins r (C[r]'(by omega)) (List.getElem?_eq_getElem _)
    obtain ⟨codes, lr, b1, b2, b3, b4⟩ := hL3 r _ _ (by rw [List.getElem?_mapIdx, hc1]; rfl) (by rw [List.getElem?_mapIdx, hf1]; rfl)
    rw [List.getElem?_eq_getElem hr, Option.some.injEq] at b1
    have hxl : ((maskedAt M W3 r).filterMap (crow[·]?)).length = n := part crows (by rw [c3.num, n3]) c3.wide _ (by
      rw [List.mem_mapIdx]
      obtain ⟨q1, q2⟩ := List.getElem?_eq_some_iff.1 hc1
      exact ⟨r, q1, by rw [q2]⟩)
    obtain ⟨ds, d1, _⟩ := b4 k _ _ (List.getElem?_eq_getElem (hxl ▸ hkn)) (List.getElem?_eq_getElem (b2 ▸ hkn))
    rw [← b1, List.getElem?_eq_getElem hk', Option.some.injEq] at d1
    rw [d1]
    exact cross_missed _ _

/-- **C104 (nothing is seen).** What the masker passes on does not depend on the frames that it hides: recordings that agree elsewhere
get the same mask and look the same afterwards. -/
theorem C104_blind (k : Masker) (a b : MaskDraws) (rows rows' out : Batch Vec) (l : Layout) (M : Mask)
    (hn : rows.map List.length = rows'.map List.length)
    (h : ∀ (r i : Nat) row row', rows[r]? = some row → rows'[r]? = some row' → ((M.data[r]?).getD [])[i]? ≠ some true → row[i]? = row'[i]?)
    (e : k.forward a b rows l = some (out, M)) : k.forward a b rows' l = some (out, M) := by
  have hlen : rows.length = rows'.length := by simpa using congrArg List.length hn
  have hrow : ∀ (r : Nat) (h1 : r < rows.length) (h2 : r < rows'.length), rows[r].length = rows'[r].length := by
    intro r h1 h2
    have := congrArg (fun L => L[r]?) hn
    simpa [h1, h2] using this
  have hw : width rows = width rows' := by
    cases rows with
    | nil =>
      cases rows' with
      | nil => rfl
      | cons _ _ => simp at hlen
    | cons x xs =>
      cases rows' with
      | nil => simp at hlen
      | cons y ys =>
        have := hrow 0 (by simp) (by simp)
        exact this
  have hide : ∀ M', M' = M → hideFrames k.embed M' rows = hideFrames k.embed M' rows' := by
    intro M' hM
    subst hM
    unfold hideFrames
    apply List.ext_getElem
    · simp [hlen]
    · intro r h1 h2
      simp only [List.length_mapIdx] at h1 h2
      simp only [List.getElem_mapIdx]
      apply List.ext_getElem
      · simp [hrow r h1 h2]
      · intro i g1 g2
        simp only [List.length_mapIdx] at g1 g2
        simp only [List.getElem_mapIdx]
        by_cases hs : isSet M' r i = true
        · rw [if_pos hs, if_pos hs]
        · rw [if_neg hs, if_neg hs]
          have := h r i _ _ (List.getElem?_eq_getElem h1) (List.getElem?_eq_getElem h2) (by simpa [isSet] using hs)
          rwa [List.getElem?_eq_getElem g1, List.getElem?_eq_getElem g2, Option.some.injEq] at this
  unfold Masker.forward at e ⊢
  rw [← hlen, ← hw]
  split at e
  · cases e
  · next hp =>
    rw [if_neg hp]
    rw [Option.bind_eq_some_iff] at e
    obtain ⟨M', h1, e⟩ := e
    rw [h1, Option.bind_some]
    have hM : M' = M := by
      dsimp only at e
      split at e
      · rw [Option.map_eq_some_iff] at e
        obtain ⟨_, _, e⟩ := e
        exact (Prod.mk.inj e).2
      · exact (Prod.mk.inj (Option.some.inj e)).2
    dsimp only
    rw [← hide M' hM]
    exact e

/-- **C104 (which distractors).** The random numbers below `n - 1` stand for the hidden frames other than `k`, each for exactly one, so
that all of them are equally probable. -/
theorem C104_others (n k : Nat) (hk : k < n) :
    (∀ x < n - 1, otherThan k x < n ∧ otherThan k x ≠ k) ∧
    ∀ k' < n, k' ≠ k → ∃ x < n - 1, otherThan k x = k' ∧ ∀ y, otherThan k y = k' → y = x := by
  unfold otherThan
  constructor
  · intro x hx
    split <;> omega
  · intro k' hk' hne
    by_cases h : k' < k
    · refine ⟨k', by omega, by simp [h], ?_⟩
      intro y hy
      split at hy <;> omega
    · refine ⟨k' - 1, by omega, by split <;> omega, ?_⟩
      intro y hy
      split at hy <;> omega

/-- **C104 (short recordings).** A recording that is not longer than a span, or too short for the least number of spans, makes the
forward pass raise, for the whole batch. -/
theorem C104_refused (m : Wav2Vec2) (d : Draws) (hk : GoodMasker m.masker) (hF : Steady (featuresOf m))
    {W : Nat} {rows : Batch Vec} {l : Layout} {S : Batch Vec} (hc : Carries W rows l S)
    (hS : ∀ s ∈ S, ∃ f, Alone (featuresOf m).forward s f)
    (h : ∃ s ∈ S, ∃ f, Alone (featuresOf m).forward s f ∧
      (f.length ≤ m.masker.span ∨ m.masker.prob * ((f.length : ℚ) - 1) < (m.masker.minSpans : ℚ) * m.masker.span)) (a b : ℝ) :
    m.forward d a b rows l = none := by
  obtain ⟨s, hs, f, hf, h⟩ := h
  have hne : S ≠ [] := List.ne_nil_of_mem hs
  obtain ⟨g, hg⟩ := frontend_acts (featuresOf m) hF
  obtain ⟨W1, frows, l1, F, e1, c1, n1, al1⟩ := (hg.batch hne hc).1 hS
  rw [features_eq, Option.map_eq_some_iff] at e1
  obtain ⟨⟨raw, l1'⟩, ex, e1⟩ := e1
  simp only [Prod.mk.injEq] at e1
  obtain ⟨e1, rfl⟩ := e1
  have hmem : f ∈ F := by
    obtain ⟨i, hi, rfl⟩ := List.getElem_of_mem hs
    have := al1 i _ _ (List.getElem?_eq_getElem hi) (List.getElem?_eq_getElem (by omega))
    rw [hg.alone (hc.facts.2.1 _ hs).1] at this hf
    rw [this, Option.some.injEq] at hf
    rw [← hf]
    exact List.getElem_mem _
  have hlens : l1'.seqLens.map Int.toNat = F.map List.length := by
    rw [c1.facts.2.2.2.1, List.map_map]
    congr 1
  have hmask : m.masker.forward d.temporal d.spatial (frows.map (List.map m.proj)) l1' = none := by
    unfold Masker.forward
    rw [if_neg (by simp [c1.facts.2.2.1]), hlens, C53_rejects _ _ _ _ _ _ _ _ _ (by
      intro h0
      rw [List.map_eq_nil_iff] at h0
      rw [h0] at hmem
      cases hmem) (by have := hk.span; omega) hk.prob.1.le ⟨f.length, List.mem_map.2 ⟨f, hmem, rfl⟩, h⟩]
    rfl
  unfold Wav2Vec2.forward Wav2Vec2.features
  simp only [ex, Option.bind_some, e1, hmask, Option.bind_none]

/-- **C104 (collapse).** If all entries of the codebooks are the same, every distractor is left out and the contrastive loss is zero;
only the diversity loss is left to change that. -/
theorem C104_collapse (m : Wav2Vec2) (d : Draws) (r : Nat) (s : List Vec) (P : List Nat) (logits : List (List (Option ℝ)))
    (h : Task m d r s P logits) (he : ∀ i j, m.quantizer.entries i = m.quantizer.entries j) : (logits.map missed).sum = 0 := by
  obtain ⟨f, c, codes, Z, _, _, _, _, h1, h2, h3⟩ := h
  apply List.sum_eq_zero
  intro x hx
  obtain ⟨row, hrow, rfl⟩ := List.mem_map.1 hx
  obtain ⟨k, hk, rfl⟩ := List.getElem_of_mem hrow
  have hkP : k < P.length := by omega
  obtain ⟨v, y, code, row, _, _, _, e, ⟨best, _, hb⟩, hl, h0, hi⟩ := h3 k _ (List.getElem?_eq_getElem hkP)
  rw [List.getElem?_eq_getElem hk, Option.some.injEq] at e
  rw [e]
  have hrest : ∀ z ∈ row.tail, z = none := by
    intro z hz
    obtain ⟨i, hi', rfl⟩ := List.getElem_of_mem hz
    simp only [List.length_tail, hl, Nat.add_sub_cancel] at hi'
    obtain ⟨k', code', _, hne, hc', hrow'⟩ := hi i hi'
    have hk' : k' < P.length := by
      have := (List.getElem?_eq_some_iff.1 hc').1
      omega
    obtain ⟨_, _, code2, _, _, _, e2, _, ⟨best', _, hb'⟩, _⟩ := h3 k' _ (List.getElem?_eq_getElem hk')
    rw [hc', Option.some.injEq] at e2
    have : code = code' := by
      rw [e2, hb, hb']
      congr 1
      funext j
      rw [he]
    rw [if_pos (by intro j _; rw [this])] at hrow'
    rw [List.getElem_tail]
    rw [List.getElem?_eq_getElem (by omega), Option.some.injEq] at hrow'
    exact hrow'
  match row, h0, hrest with
  | [], h0, _ => simp at h0
  | z :: rest, h0, hrest =>
    simp only [List.getElem?_cons_zero, Option.some.injEq] at h0
    subst h0
    have hz : (rest.map weightOf).sum = 0 := by
      apply List.sum_eq_zero
      intro w hw
      obtain ⟨u, hu, rfl⟩ := List.mem_map.1 hw
      rw [hrest u hu]
      rfl
    simp [missed, hz, weightOf]

/-! ## Diversity -/

private theorem sum_const_div (l : List Nat) (c : ℝ) (f : Nat → ℝ) : (l.map fun v => f v / c).sum = (l.map f).sum / c := by
  induction l with
  | nil => simp
  | cons a l ih => simp [ih, add_div]

private theorem prob_sum (q : Quantizer) (hq : 1 ≤ q.numEntries) (v : Vec) (g : Nat) :
    ((List.range q.numEntries).map (q.prob v g)).sum = 1 := by
  have hpos : 0 < ((List.range q.numEntries).map fun e => Real.exp (q.scores v g e)).sum := by
    apply List.sum_pos
    · simp only [List.mem_map]
      rintro _ ⟨x, _, rfl⟩
      exact Real.exp_pos _
    · simp; omega
  unfold Quantizer.prob
  rw [sum_const_div, div_self hpos.ne']

private theorem prob_nonneg (q : Quantizer) (v : Vec) (g e : Nat) : 0 ≤ q.prob v g e := by
  refine div_nonneg (Real.exp_pos _).le (List.sum_nonneg ?_)
  simp only [List.mem_map]
  rintro _ ⟨x, _, rfl⟩
  exact (Real.exp_pos _).le

private theorem entropy_le (n : Nat) (hn : 1 ≤ n) (p : Nat → ℝ) (h0 : ∀ e, 0 ≤ p e) (h1 : ((List.range n).map p).sum = 1) :
    Real.exp (- ((List.range n).map fun e => p e * Real.log (p e + 1 / 10000000)).sum) ≤ n := by
  have hn' : (0 : ℝ) < n := by exact_mod_cast hn
  have key : ∀ e, p e - 1 / n ≤ p e * Real.log (p e + 1 / 10000000) + Real.log n * p e := by
    intro e
    have hp := h0 e
    have hy : 0 < p e + 1 / 10000000 := by positivity
    have hz : 0 < (p e + 1 / 10000000) * n := by positivity
    have hlog : Real.log ((p e + 1 / 10000000) * n) = Real.log (p e + 1 / 10000000) + Real.log n := Real.log_mul hy.ne' hn'.ne'
    have h2 := Real.one_sub_inv_le_log_of_pos hz
    have h3 : p e * (1 - ((p e + 1 / 10000000) * n)⁻¹) ≤ p e * Real.log ((p e + 1 / 10000000) * n) := mul_le_mul_of_nonneg_left h2 hp
    have h4 : p e * ((p e + 1 / 10000000) * n)⁻¹ ≤ 1 / n := by
      rw [mul_inv, ← mul_assoc, one_div (n : ℝ)]
      apply mul_le_of_le_one_left (by positivity)
      rw [← div_eq_mul_inv, div_le_one hy]
      linarith
    rw [hlog] at h3
    nlinarith
  have hsum : ∀ l : List Nat, (l.map p).sum - l.length / n ≤ (l.map fun e => p e * Real.log (p e + 1 / 10000000)).sum + Real.log n * (l.map p).sum := by
    intro l
    induction l with
    | nil => simp
    | cons a l ih =>
      have := key a
      simp only [List.map_cons, List.sum_cons, List.length_cons, Nat.cast_add, Nat.cast_one, add_div]
      linarith
  have := hsum (List.range n)
  rw [h1, List.length_range, div_self hn'.ne'] at this
  have h5 : Real.exp (Real.log n) = n := Real.exp_log hn'
  refine le_trans (Real.exp_le_exp.2 ?_) h5.le
  linarith

private theorem perplexity_bounds (q : Quantizer) (hq : 1 ≤ q.numEntries) (hg : 1 ≤ q.codebooks) (xs : List Vec) (hx : xs ≠ []) :
    0 < q.perplexity xs ∧ q.perplexity xs ≤ q.codebooks * q.numEntries := by
  have hlen : (xs.length : ℝ) ≠ 0 := by
    have := List.length_pos_iff.2 hx
    exact_mod_cast this.ne'
  unfold Quantizer.perplexity
  constructor
  · apply List.sum_pos
    · simp only [List.mem_map]
      rintro _ ⟨x, _, rfl⟩
      exact Real.exp_pos _
    · simp; omega
  · have h1 : ∀ g, ((List.range q.numEntries).map fun e => (xs.map fun v => q.prob v g e).sum / xs.length).sum = 1 := by
      intro g
      rw [sum_const_div]
      have : ((List.range q.numEntries).map fun e => (xs.map fun v => q.prob v g e).sum).sum = xs.length := by
        clear hx hlen
        induction xs with
        | nil => simp
        | cons v xs ih =>
          simp only [List.map_cons, List.sum_cons, List.length_cons, Nat.cast_add, Nat.cast_one]
          rw [List.sum_map_add, ih, prob_sum q hq]
          ring
      rw [this, div_self hlen]
    have h2 : ∀ x ∈ (List.range q.codebooks).map (fun g => Real.exp (- ((List.range q.numEntries).map fun e =>
        let p := (xs.map fun v => q.prob v g e).sum / xs.length
        p * Real.log (p + 1 / 10000000)).sum)), x ≤ q.numEntries := by
      intro x hx'
      obtain ⟨g, _, rfl⟩ := List.mem_map.1 hx'
      refine entropy_le q.numEntries hq (fun e => (xs.map fun v => q.prob v g e).sum / xs.length) (fun e => ?_) (h1 g)
      refine div_nonneg (List.sum_nonneg ?_) (by positivity)
      simp only [List.mem_map]
      rintro _ ⟨v, _, rfl⟩
      exact prob_nonneg q v g e
    have := List.sum_le_card_nsmul _ _ h2
    simpa using this

/-- **C104 (diversity).** Whenever the forward pass succeeds, the diversity loss is between zero, when all entries are equally
probable, and the number of targets. -/
theorem C104_diversity (m : Wav2Vec2) (d : Draws) (a b : ℝ) (rows : Batch Vec) (l : Layout) (res : Result)
    (hq : 1 ≤ m.quantizer.numEntries) (hg : 1 ≤ m.quantizer.codebooks) (h : m.forward d a b rows l = some res) :
    0 ≤ res.diversity ∧ res.diversity ≤ res.numTargets := by
  unfold Wav2Vec2.forward at h
  rw [Option.bind_eq_some_iff] at h
  obtain ⟨⟨out, targets, M, raw⟩, _, h⟩ := h
  rw [Option.map_eq_some_iff] at h
  obtain ⟨L, hL, rfl⟩ := h
  have hne : targets.flatten ≠ [] := by
    intro h0
    unfold Wav2Vec2.contrast sampleDistractors at hL
    rw [Option.bind_eq_some_iff] at hL
    obtain ⟨_, _, hL⟩ := hL
    rw [Option.map_eq_some_iff] at hL
    obtain ⟨_, hL, _⟩ := hL
    dsimp only at hL
    split at hL
    · cases hL
    · next hw =>
      apply hw
      rw [List.flatten_eq_nil_iff] at h0
      cases targets with
      | nil => simp [width]
      | cons t rest => simp [width, h0 t (by simp)]
  obtain ⟨p1, p2⟩ := perplexity_bounds m.quantizer hq hg _ hne
  have hnum : (0 : ℝ) < m.quantizer.codebooks * m.quantizer.numEntries := by
    have h1 : (0 : ℝ) < m.quantizer.codebooks := by exact_mod_cast hg
    have h2 : (0 : ℝ) < m.quantizer.numEntries := by exact_mod_cast hq
    positivity
  simp only [diversityLoss]
  constructor
  · exact mul_nonneg (div_nonneg (by linarith) hnum.le) (by positivity)
  · refine mul_le_of_le_one_left (by positivity) ?_
    rw [div_le_one hnum]
    linarith

/-! ## Penalty -/

/-- The sum of the squares of all features of a recording. -/
noncomputable def squares (dim : Nat) (t : List Vec) : ℝ := (t.map fun v => ((List.range dim).map fun j => v j ^ 2).sum).sum

private theorem penalty_eq {m : Wav2Vec2} {d : Draws} {a b : ℝ} {rows : Batch Vec} {l : Layout} {res : Result}
    (h : m.forward d a b rows l = some res) : ∃ raw l', m.extractor.forward rows l = some (raw, l') ∧
      res.penalty = (raw.map (squares m.featureDim)).sum / (raw.length * width raw * m.featureDim : Nat) * res.numTargets := by
  unfold Wav2Vec2.forward at h
  rw [Option.bind_eq_some_iff] at h
  obtain ⟨⟨out, targets, M, raw⟩, h1, h⟩ := h
  rw [Option.map_eq_some_iff] at h
  obtain ⟨L, _, rfl⟩ := h
  unfold Wav2Vec2.features at h1
  rw [Option.bind_eq_some_iff] at h1
  obtain ⟨⟨raw', l'⟩, h2, h1⟩ := h1
  rw [Option.bind_eq_some_iff] at h1
  obtain ⟨_, _, h1⟩ := h1
  rw [Option.bind_eq_some_iff] at h1
  obtain ⟨_, _, h1⟩ := h1
  rw [Option.bind_eq_some_iff] at h1
  obtain ⟨_, _, h1⟩ := h1
  rw [Option.map_eq_some_iff] at h1
  obtain ⟨_, _, h1⟩ := h1
  simp only [Prod.mk.injEq] at h1
  obtain ⟨_, _, _, rfl⟩ := h1
  exact ⟨raw', l', h2, rfl⟩

/-- **C104 (penalty).** For recordings of the same length, so that nothing is padded, the penalty for each target is the mean over the
recordings of the mean square of their own features. Missing for the full property: padded batches, see `C104_penalty_padding`. -/
theorem C104_penalty_partial (m : Wav2Vec2) (d : Draws) (a b : ℝ) (hF : Steady (featuresOf m)) {W : Nat} {rows : Batch Vec} {l : Layout}
    {S : Batch Vec} (hne : S ≠ []) (hc : Carries W rows l S) (hW : ∀ s ∈ S, s.length = W) (res : Result)
    (h : m.forward d a b rows l = some res) :
    ∃ T : Batch Vec, T.length = S.length ∧
      (∀ (r : Nat) s t, S[r]? = some s → T[r]? = some t → Alone m.extractor.forward s t) ∧
      res.penalty = (T.map fun t => squares m.featureDim t / (t.length * m.featureDim : Nat)).sum / S.length * res.numTargets := by
  obtain ⟨g, hg⟩ := frontend_acts (⟨m.extractor, id, .none, id⟩ : Frontend Vec) ⟨hF.1, trivial⟩
  have hg' : Acts m.extractor.forward g := acts_congr hg (by
    intro W rows l S _
    simp only [Frontend.forward, SpeechPos.forward, Option.map_some, List.map_id_fun, List.map_id]
    cases m.extractor.forward rows l <;> rfl)
  obtain ⟨raw, l', e, hp⟩ := penalty_eq h
  have hok : ∀ s ∈ S, g s ≠ none := by
    intro s hs hn
    rw [hg'.bad hc ⟨s, hs, hn⟩] at e
    cases e
  obtain ⟨W', raw', l'', e', c', hlen⟩ := hg'.ok hne hc hok
  rw [e, Option.some.injEq, Prod.mk.injEq] at e'
  obtain ⟨rfl, rfl⟩ := e'
  have hT : ∀ t ∈ S.map fun s => (g s).getD [], t.length = W' := by
    intro t ht
    obtain ⟨s, hs, rfl⟩ := List.mem_map.1 ht
    exact hlen s hs (hW s hs)
  have hraw : raw = S.map fun s => (g s).getD [] := by
    refine (c'.eq ?_).1
    have := c'.facts.2.2.2.2.1
    cases hpad : l'.padded with
    | false => rfl
    | true =>
      obtain ⟨t, ht, hlt⟩ := this.1 hpad
      rw [hT t ht] at hlt
      omega
  refine ⟨raw, by rw [hraw]; simp, ?_, ?_⟩
  · intro r s t hs ht
    rw [hg'.alone (hc.facts.2.1 s (List.mem_of_getElem? hs)).1]
    rw [hraw, List.getElem?_map, hs] at ht
    have := hok s (List.mem_of_getElem? hs)
    cases hgs : g s with
    | none => exact absurd hgs this
    | some t' =>
      simp only [Option.map_some, hgs, Option.getD_some] at ht
      exact ht
  · have hrw : ∀ t ∈ raw, t.length = W' := by rw [hraw]; exact hT
    have hwid : width raw = W' := by
      obtain ⟨row, rest, e⟩ := List.exists_cons_of_ne_nil (show raw ≠ [] by rw [hraw]; simpa using hne)
      rw [e] at hrw ⊢
      simp [width, hrw row (by simp)]
    have hl : raw.length = S.length := by rw [hraw]; simp
    rw [hp, hwid, hl]
    congr 1
    have hmap : raw.map (fun t => squares m.featureDim t / (t.length * m.featureDim : Nat)) =
        raw.map fun t => squares m.featureDim t / (W' * m.featureDim : Nat) := by
      apply List.map_congr_left
      intro t ht
      rw [hrw t ht]
    have hdiv : ∀ (L : List (List Vec)) (c : ℝ), (L.map fun t => squares m.featureDim t / c).sum = (L.map (squares m.featureDim)).sum / c := by
      intro L c
      induction L with
      | nil => simp
      | cons x L ih => simp [ih, add_div]
    rw [hmap, hdiv, div_div]
    congr 1
    push_cast
    ring

/-- **C104, violation.** The mean goes over the padding as well. For filterbank features with zeros as padding, the penalty of a batch
is smaller than the mean square of the features of its recordings, and depends on how long the longest of them is. -/
theorem C104_penalty_padding (m : Wav2Vec2) (d : Draws) (a b : ℝ) (hm : m.extractor = .none) (hdim : 0 < m.featureDim) {W : Nat} {l : Layout}
    {S : Batch Vec} (hc : Carries W (S.map fun s => s ++ List.replicate (W - s.length) fun _ => 0) l S)
    (hpad : ∃ s ∈ S, s.length < W) (hx : ∃ s ∈ S, ∃ v ∈ s, ∃ j < m.featureDim, v j ≠ 0) (res : Result) (hn : 0 < res.numTargets)
    (h : m.forward d a b (S.map fun s => s ++ List.replicate (W - s.length) fun _ => 0) l = some res) :
    res.penalty < (S.map (squares m.featureDim)).sum / ((S.map List.length).sum * m.featureDim : Nat) * res.numTargets := by
  obtain ⟨raw, l', e, hp⟩ := penalty_eq h
  rw [hm, Extractor.forward, Option.some.injEq, Prod.mk.injEq] at e
  obtain ⟨rfl, rfl⟩ := e
  have hsq0 : ∀ n, squares m.featureDim (List.replicate n fun _ => 0) = 0 := by
    intro n
    simp [squares]
  have hsq : (S.map fun s => s ++ List.replicate (W - s.length) fun _ => (0 : ℝ)).map (squares m.featureDim) = S.map (squares m.featureDim) := by
    rw [List.map_map]
    apply List.map_congr_left
    intro s _
    have := hsq0 (W - s.length)
    simp only [squares, Function.comp_apply, List.map_append, List.sum_append] at this ⊢
    rw [this, add_zero]
  have hin : ∀ v : Vec, 0 ≤ ((List.range m.featureDim).map fun j => v j ^ 2).sum := by
    intro v
    apply List.sum_nonneg
    simp only [List.mem_map]
    rintro _ ⟨j, _, rfl⟩
    positivity
  have hs0 : ∀ s, 0 ≤ squares m.featureDim s := by
    intro s
    apply List.sum_nonneg
    simp only [List.mem_map]
    rintro _ ⟨v, _, rfl⟩
    exact hin v
  have hpos : 0 < (S.map (squares m.featureDim)).sum := by
    obtain ⟨s, hs, v, hv, j, hj, hne⟩ := hx
    have h1 : v j ^ 2 ≤ ((List.range m.featureDim).map fun j => v j ^ 2).sum :=
      List.single_le_sum (by simp only [List.mem_map]; rintro _ ⟨j, _, rfl⟩; positivity) _ (List.mem_map.2 ⟨j, List.mem_range.2 hj, rfl⟩)
    have h2 : ((List.range m.featureDim).map fun j => v j ^ 2).sum ≤ squares m.featureDim s :=
      List.single_le_sum (by simp only [List.mem_map]; rintro _ ⟨v, _, rfl⟩; exact hin v) _ (List.mem_map.2 ⟨v, hv, rfl⟩)
    have h3 : squares m.featureDim s ≤ (S.map (squares m.featureDim)).sum :=
      List.single_le_sum (by simp only [List.mem_map]; rintro _ ⟨v, _, rfl⟩; exact hs0 v) _ (List.mem_map.2 ⟨s, hs, rfl⟩)
    have : 0 < v j ^ 2 := by positivity
    linarith
  have hlt : ∀ T : Batch Vec, (∀ s ∈ T, s.length ≤ W) → (T.map List.length).sum ≤ T.length * W ∧
      ((∃ s ∈ T, s.length < W) → (T.map List.length).sum < T.length * W) := by
    intro T
    induction T with
    | nil => simp
    | cons t T ih =>
      intro hT
      obtain ⟨i1, i2⟩ := ih fun s hs => hT s (by simp [hs])
      have ht := hT t (by simp)
      simp only [List.map_cons, List.sum_cons, List.length_cons, Nat.succ_mul]
      refine ⟨by omega, ?_⟩
      rintro ⟨s, hs, hlt⟩
      rcases List.mem_cons.1 hs with rfl | hs
      · omega
      · have := i2 ⟨s, hs, hlt⟩
        omega
  have hle : ∀ s ∈ S, s.length ≤ W := fun s hs => (hc.facts.2.1 s hs).2
  have hlen := (hlt S hle).2 hpad
  have hwid : width (S.map fun s => s ++ List.replicate (W - s.length) fun _ => (0 : ℝ)) = W := by
    obtain ⟨s, hs, _⟩ := hpad
    obtain ⟨s0, rest, rfl⟩ := List.exists_cons_of_ne_nil (List.ne_nil_of_mem hs)
    have := hle s0 (by simp)
    simp [width]
    omega
  have hsum : 0 < (S.map List.length).sum := by
    obtain ⟨s, hs, v, hv, _⟩ := hx
    have : s.length ≤ (S.map List.length).sum := List.single_le_sum (by simp) _ (List.mem_map.2 ⟨s, hs, rfl⟩)
    have := List.length_pos_iff.2 (List.ne_nil_of_mem hv)
    omega
  rw [hp, hsq, hwid, List.length_map]
  refine mul_lt_mul_of_pos_right (div_lt_div_of_pos_left hpos ?_ ?_) (by exact_mod_cast hn)
  · exact_mod_cast Nat.mul_pos hsum hdim
  · exact_mod_cast Nat.mul_lt_mul_of_pos_right hlen hdim

/-- **C104 (temperature).** After any forward passes, the temperature of the quantizer depends on the number of those in training mode
only: it is what the schedule says, and it never rises. -/
theorem C104_temperature (q : Quantizer) (hm : 0 ≤ q.maxTemp) (h0 : 0 ≤ q.decay) (h1 : q.decay ≤ 1) (calls : List Bool) (training : Bool) :
    (q.temp training (calls.foldl (fun n t => (q.temp t n).2) 0)).1 = max (q.maxTemp * q.decay ^ calls.count true) q.minTemp ∧
    ∀ more : List Bool, (q.temp training ((calls ++ more).foldl (fun n t => (q.temp t n).2) 0)).1 ≤
      (q.temp training (calls.foldl (fun n t => (q.temp t n).2) 0)).1 := by
  have hcount : ∀ (cs : List Bool) (n : Nat), cs.foldl (fun n t => (q.temp t n).2) n = n + cs.count true := by
    intro cs
    induction cs with
    | nil => simp
    | cons c cs ih =>
      intro n
      rw [List.foldl_cons, ih]
      cases c
      · simp [Quantizer.temp]
      · simp [Quantizer.temp]
        omega
  constructor
  · rw [hcount]
    simp [Quantizer.temp]
  · intro more
    rw [hcount, hcount]
    simp only [Quantizer.temp, List.count_append]
    refine max_le_max (mul_le_mul_of_nonneg_left ?_ hm) le_rfl
    exact pow_le_pow_of_le_one h0 h1 (by omega)

/-! ## Examples -/

/-- A model on frames of one number, without extractor, with spans of two frames and two codebooks of two entries. -/
noncomputable def smallWav2Vec2 : Wav2Vec2 where
  extractor := .none
  norm := id
  proj := id
  masker := ⟨fun _ => 7, 2, 1, 1, 1, 1, 0, 0⟩
  pos := .none
  post := id
  encoder := smallEncoder
  finalProj := id
  quantizer := ⟨2, 2, 1, fun v _ e => if e = 0 then v 0 else - v 0, fun i _ => i, fun v => if v 1 ≤ v 0 then 0 else 1, 2, 1 / 2, 1 / 2⟩
  targetProj := id
  finalDim := 2
  featureDim := 1
  numDistractors := 3
  sim := fun a b => a 0 * b 0
  logitTemp := 1

theorem smallWav2Vec2_features (s : List Vec) (hs : 1 ≤ s.length) : Alone (featuresOf smallWav2Vec2).forward s s := by
  obtain ⟨l, h⟩ := carries_one hs
  exact ⟨l, l, h, by simp [featuresOf, smallWav2Vec2, Frontend.forward, Extractor.forward, SpeechPos.forward], h⟩

theorem smallWav2Vec2_context (s : List Vec) (hs : 1 ≤ s.length) : ∃ c, Alone (contextOf smallWav2Vec2).forward s c := by
  obtain ⟨l, h⟩ := carries_one hs
  refine ⟨_, C98_asr_alone (contextOf smallWav2Vec2) ⟨trivial, trivial⟩ smallEncoder_good (f := s) ?_ (smallEncoder_fits _)⟩
  exact ⟨l, l, h, by simp [contextOf, smallWav2Vec2, Frontend.forward, Extractor.forward, SpeechPos.forward], h⟩

/-- Two recordings of five and four frames. -/
theorem carries_five {V : Type} (a b c d e f g h i p : V) :
    ∃ l, Carries 5 [[a, b, c, d, e], [f, g, h, i, p]] l [[a, b, c, d, e], [f, g, h, i]] := by
  refine ⟨⟨5, [0, 5, 10], [5, 4], [[0, 1, 2, 3, 4], [0, 1, 2, 3, -1]], 4, 5, false, true⟩, rfl, ?_, by simp,
    (by decide : Layout.new [2, 5] (some [5, 4]) false = some _)⟩
  intro r s h
  match r with
  | 0 => simp at h; subst h; exact ⟨_, rfl, rfl⟩
  | 1 => simp at h; subst h; exact ⟨_, rfl, rfl⟩
  | r + 2 => simp at h

theorem exists_draws (noise : Option (Nat → Nat → Vec)) : ∃ d : Draws, GoodDraws d ∧ d.noise = noise := by
  obtain ⟨topk, ht⟩ := exists_topk
  exact ⟨⟨⟨fun _ => 1 / 2, fun _ _ => 1 / 2, topk⟩, ⟨fun _ => 1 / 2, fun _ _ => 1 / 2, topk⟩, fun n r c => (r + c) % n, noise⟩,
    ⟨⟨fun _ => by norm_num, fun _ _ => by norm_num, ht⟩, ⟨fun _ => by norm_num, fun _ _ => by norm_num, ht⟩,
      fun n r c hn => Nat.mod_lt _ hn⟩, rfl⟩

/-- Five and four frames with any draws: the forward pass succeeds, and its diversity loss is in the bounds. -/
theorem smallWav2Vec2_runs (d : Draws) (hd : GoodDraws d) (a b c e f g h i j p : Vec) : ∃ l res,
    Carries 5 [[a, b, c, e, f], [g, h, i, j, p]] l [[a, b, c, e, f], [g, h, i, j]] ∧
    smallWav2Vec2.forward d (1 / 10) 10 [[a, b, c, e, f], [g, h, i, j, p]] l = some res ∧ 4 ≤ res.numTargets ∧
    0 ≤ res.diversity ∧ res.diversity ≤ res.numTargets := by
  obtain ⟨l, hl⟩ := carries_five a b c e f g h i j p
  obtain ⟨res, n, P, h1, h2, _, _, _, h3, _⟩ := C104_task_partial smallWav2Vec2 d hd
    ⟨by decide, by norm_num [smallWav2Vec2], .inl (by norm_num [smallWav2Vec2])⟩
    (by
      intro v
      simp only [smallWav2Vec2]
      refine ⟨by split <;> decide, ?_⟩
      intro e he
      split
      · next h =>
        match e, he with
        | 0, _ => exact le_rfl
        | 1, _ => exact h
      · next h =>
        match e, he with
        | 0, _ => exact (not_le.1 h).le
        | 1, _ => exact le_rfl)
    ⟨trivial, trivial⟩ ⟨trivial, trivial⟩ smallEncoder_good (by simp) hl
    (by
      intro s hs
      simp only [List.mem_cons, List.not_mem_nil, or_false] at hs
      have hn : s.length = 5 ∨ s.length = 4 := by rcases hs with rfl | rfl <;> simp
      refine ⟨s, smallWav2Vec2_features s (by omega), ?_, fun x hx => smallWav2Vec2_context x (by omega)⟩
      rcases hn with hn | hn <;> rw [hn] <;> constructor <;> norm_num [smallWav2Vec2]) (1 / 10) 10
  have h4 : 2 ≤ n := h2
  obtain ⟨d1, d2⟩ := C104_diversity _ _ _ _ _ _ res (by decide) (by decide) h1
  exact ⟨l, res, hl, h1, by rw [h3]; simp; omega, d1, d2⟩

/-- In training, with noise. -/
example (a b c e f g h i j p : Vec) : ∃ d l res, smallWav2Vec2.forward d (1 / 10) 10 [[a, b, c, e, f], [g, h, i, j, p]] l = some res := by
  obtain ⟨d, hd, _⟩ := exists_draws (some fun i g e => i + g + e)
  obtain ⟨l, res, _, h, _⟩ := smallWav2Vec2_runs d hd a b c e f g h i j p
  exact ⟨d, l, res, h⟩

/-- A frame of padding makes the penalty smaller. -/
example (v : Vec) (hx : v 0 ≠ 0) : ∃ d l res, smallWav2Vec2.forward d (1 / 10) 10 [[v, v, v, v, v], [v, v, v, v, fun _ => 0]] l = some res ∧
    res.penalty < v 0 ^ 2 * res.numTargets := by
  obtain ⟨d, hd, _⟩ := exists_draws none
  obtain ⟨l, res, hc, h, hn, _⟩ := smallWav2Vec2_runs d hd v v v v v v v v v fun _ => 0
  refine ⟨d, l, res, h, ?_⟩
  have := C104_penalty_padding smallWav2Vec2 d (1 / 10) 10 rfl (by decide) (S := [[v, v, v, v, v], [v, v, v, v]]) hc
    ⟨[v, v, v, v], by simp, by simp⟩ ⟨[v, v, v, v], by simp, v, by simp, 0, by decide, hx⟩ res (by omega) h
  refine this.trans_le (le_of_eq ?_)
  have e : (([[v, v, v, v, v], [v, v, v, v]] : Batch Vec).map (squares smallWav2Vec2.featureDim)).sum = 9 * v 0 ^ 2 := by
    simp [squares, smallWav2Vec2]
    ring
  have e' : ((([[v, v, v, v, v], [v, v, v, v]] : Batch Vec).map List.length).sum * smallWav2Vec2.featureDim : Nat) = 9 := rfl
  rw [e, e']
  push_cast
  ring

/-- Without padding it is the mean square. -/
example (d : Draws) (l : Layout) (res : Result) (v : Vec) (hc : Carries 1 [[v], [v]] l [[v], [v]])
    (h : smallWav2Vec2.forward d (1 / 10) 10 [[v], [v]] l = some res) : ∃ T : Batch Vec, T.length = 2 ∧
    res.penalty = (T.map fun t => squares 1 t / (t.length * 1 : Nat)).sum / 2 * res.numTargets := by
  obtain ⟨T, h1, _, h2⟩ := C104_penalty_partial smallWav2Vec2 d _ _ ⟨trivial, trivial⟩ (by simp) hc (by simp) res h
  exact ⟨T, h1, by simpa [smallWav2Vec2] using h2⟩

/-- A recording of two frames is too short. -/
example (d : Draws) (x y z p : Vec) : ∃ l, Carries 2 [[x, y], [z, p]] l [[x, y], [z]] ∧ smallWav2Vec2.forward d 1 1 [[x, y], [z, p]] l = none := by
  obtain ⟨l, hl⟩ := carries_two x y z p
  refine ⟨l, hl, C104_refused smallWav2Vec2 d ⟨by decide, by norm_num [smallWav2Vec2], .inl (by norm_num [smallWav2Vec2])⟩
    ⟨trivial, trivial⟩ hl ?_ ?_ 1 1⟩
  · intro s hs
    simp only [List.mem_cons, List.not_mem_nil, or_false] at hs
    exact ⟨s, smallWav2Vec2_features s (by rcases hs with rfl | rfl <;> simp)⟩
  · exact ⟨_, by simp, _, smallWav2Vec2_features [x, y] (by simp), .inl (by simp [smallWav2Vec2])⟩

/-- The temperature halves from two down to one half. -/
example : (smallWav2Vec2.quantizer.temp false ([true, false, true, true].foldl (fun n t => (smallWav2Vec2.quantizer.temp t n).2) 0)).1 = 1 / 2 := by
  rw [(C104_temperature smallWav2Vec2.quantizer (by norm_num [smallWav2Vec2]) (by norm_num [smallWav2Vec2]) (by norm_num [smallWav2Vec2]) _ _).1]
  norm_num [smallWav2Vec2]

end Fs2.Props
