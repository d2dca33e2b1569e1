import Verif.Nn.Encoder
import Verif.Nn.RowMask

/-!
# The pretraining task of wav2vec 2.0

Models `Wav2Vec2Model.forward` (`src/fairseq2/models/wav2vec2/model.py`), `StandardWav2Vec2Masker`
(`models/wav2vec2/masker.py`), `GumbelWav2Vec2VectorQuantizer` (`models/wav2vec2/vector_quantizer.py`) and
`Wav2Vec2SslCriterion` with its losses (`recipes/wav2vec2/ssl/{criterion,metrics}.py`).

Numbers are exact reals, and `none` among the logits is minus infinity. Random numbers are given as functions. Dropout is left out, so
training and evaluation differ in the quantizer only: in training it adds Gumbel noise. `argmax` and the cosine similarity are
parameters. Gradients are left out, and with them `quantizer_encoder_grad`. An exception is `none`.
-/

namespace Fs2.Contrast
open Fs2.Nn Fs2.Enc Fs2.Speech
open Fs2.Dec hiding width

/-! ## The masker -/

/-- Whether the mask is set at a row and a column. -/
def isSet (M : Mask) (r i : Nat) : Bool := ((M.data[r]?).getD [])[i]? = some true

/-- `StandardWav2Vec2Masker`. -/
structure Masker where
  embed : Vec
  span : Nat
  prob : ℚ
  minSpans : ℤ
  modelDim : Nat
  spatialSpan : Nat
  spatialProb : ℚ
  minSpatial : ℤ

/-- The random numbers of a call of `compute_row_mask`, and how `topk` chooses. -/
structure MaskDraws where
  rand : Nat → ℚ
  vals : Nat → Nat → ℚ
  topk : List ℚ → Nat → List Nat

/-- `seqs[temporal_mask] = self.temporal_mask_embed` (masker.py:148). A mask of shape (0, 0) has no effect. -/
def hideFrames (embed : Vec) (M : Mask) (rows : Batch Vec) : Batch Vec :=
  rows.mapIdx fun r row => row.mapIdx fun i v => if isSet M r i then embed else v

/-- `seqs[spatial_mask] = 0.0` (masker.py:164-167). -/
def hideFeatures (M : Mask) (rows : Batch Vec) : Batch Vec :=
  rows.mapIdx fun r row => row.map fun v j => if isSet M r j then 0 else v j

/-- `StandardWav2Vec2Masker.forward` (masker.py:129-169). -/
def Masker.forward (k : Masker) (temporal spatial : MaskDraws) (rows : Batch Vec) (l : Layout) : Option (Batch Vec × Mask) :=
  if l.packed then none
  else
    (computeRowMask rows.length (width rows) k.span k.prob (some (l.seqLens.map Int.toNat)) k.minSpans temporal.rand temporal.vals
      temporal.topk).bind fun M =>
      let rows := hideFrames k.embed M rows
      if k.spatialProb > 0 then
        (computeRowMask rows.length k.modelDim k.spatialSpan k.spatialProb none k.minSpatial spatial.rand spatial.vals
          spatial.topk).map fun M' => (hideFeatures M' rows, M)
      else some (rows, M)

/-- `extract_masked_elements` (masker.py:48-63): the masked frames of all rows one after the other, divided into as many equal parts
as there are rows. A mask of another shape, or a number that cannot be divided, raises; so does, in the quantizer, what results from
the mask of shape (0, 0). -/
def extractMasked {V : Type} (M : Mask) (rows : List (List V)) : Option (List (List V)) :=
  if M.rows ≠ rows.length ∨ M.cols ≠ width rows then none
  else
    let flat := (rows.zip M.data).flatMap fun x => (x.1.zip x.2).filterMap fun y => if y.2 then some y.1 else none
    if flat.length % rows.length ≠ 0 then none
    else
      let n := flat.length / rows.length
      some ((List.range rows.length).map fun r => (flat.drop (r * n)).take n)

/-! ## The quantizer -/

/-- `GumbelWav2Vec2VectorQuantizer`: `scores v g` are the numbers that `entry_proj` gives to the entries of codebook `g`, and
`entries` the parameter of that name. -/
structure Quantizer where
  codebooks : Nat
  numEntries : Nat
  entryDim : Nat
  scores : Vec → Nat → Vec
  entries : Nat → Vec
  argmax : Vec → Nat
  maxTemp : ℝ
  minTemp : ℝ
  decay : ℝ

/-- The quantized vector of position `i` (vector_quantizer.py:132-148, 165-184): from each codebook the entry with the largest score, in
training with noise. The sum over one-hot vectors times entries is the entry, and the results are put one after the other. -/
def Quantizer.quantize (q : Quantizer) (noise : Option (Nat → Nat → Vec)) (i : Nat) (v : Vec) : Vec := fun j =>
  let g := j / q.entryDim
  let k := q.argmax fun e => q.scores v g e + (match noise with | none => 0 | some noise => noise i g e)
  q.entries (g * q.numEntries + k) (j % q.entryDim)

/-- `softmax` of the scores of one codebook. -/
noncomputable def Quantizer.prob (q : Quantizer) (v : Vec) (g e : Nat) : ℝ :=
  Real.exp (q.scores v g e) / ((List.range q.numEntries).map fun e => Real.exp (q.scores v g e)).sum

/-- `prob_perplexity` (vector_quantizer.py:157-163), summed over the codebooks. -/
noncomputable def Quantizer.perplexity (q : Quantizer) (xs : List Vec) : ℝ :=
  ((List.range q.codebooks).map fun g =>
    Real.exp (- ((List.range q.numEntries).map fun e =>
      let p := (xs.map fun v => q.prob v g e).sum / xs.length
      p * Real.log (p + 1 / 10000000)).sum)).sum

/-- `_compute_current_temp` (vector_quantizer.py:190-198): the temperature and the new number of updates. -/
noncomputable def Quantizer.temp (q : Quantizer) (training : Bool) (updates : Nat) : ℝ × Nat :=
  let temp := q.maxTemp * q.decay ^ updates
  (max temp q.minTemp, if training then updates + 1 else updates)

/-! ## The model -/

/-- `Wav2Vec2Model`: `norm` is the layer norm after the extractor, `proj` the projection to the dimension of the model, `post` the norm
of the frontend. -/
structure Wav2Vec2 where
  extractor : Extractor Vec
  norm : Vec → Vec
  proj : Vec → Vec
  masker : Masker
  pos : SpeechPos Vec
  post : Vec → Vec
  encoder : Encoder
  finalProj : Vec → Vec
  quantizer : Quantizer
  targetProj : Vec → Vec
  finalDim : Nat
  featureDim : Nat
  numDistractors : Nat
  sim : Vec → Vec → ℝ
  logitTemp : ℝ

/-- All random numbers of a forward pass: of the two masks, of `randint` for its bound and each row and column, and of the quantizer in training. -/
structure Draws where
  temporal : MaskDraws
  spatial : MaskDraws
  randint : Nat → Nat → Nat → Nat
  noise : Option (Nat → Nat → Vec)

/-- `run_frontend` and the encoder (model.py:125-167): the encoder output, the targets, the temporal mask and the raw features. -/
noncomputable def Wav2Vec2.features (m : Wav2Vec2) (d : Draws) (rows : Batch Vec) (l : Layout) :
    Option (Batch Vec × Batch Vec × Mask × Batch Vec) :=
  (m.extractor.forward rows l).bind fun x =>
    let raw := x.1
    let targets := raw.map (List.map m.norm)
    (m.masker.forward d.temporal d.spatial (targets.map (List.map m.proj)) x.2).bind fun y =>
      (m.pos.forward y.1 x.2).bind fun seqs =>
        (extractMasked y.2 targets).bind fun targets =>
          (m.encoder.forward (seqs.map (List.map m.post)) x.2).map fun z => (z.1, targets, y.2, raw)

/-- `_sample_distractors` (model.py:209-251). `randint` raises if there is no number to draw from (model.py:224-229). -/
def sampleDistractors (num : Nat) (randint : Nat → Nat → Nat → Nat) (targets : Batch Vec) : Option (List (List (List Vec))) :=
  let n := width targets
  if n ≤ 1 then none
  else
    let flat := targets.flatten
    some ((List.range targets.length).map fun r => (List.range n).map fun s => (List.range num).map fun i =>
      let c := s * num + i
      let x := randint (n - 1) r c
      let x := if x ≥ c / num then x + 1 else x
      (flat[x + r * n]?).getD fun _ => 0)

open Classical in
/-- `_compute_logits` (model.py:253-277) for one position. -/
noncomputable def Wav2Vec2.logits (m : Wav2Vec2) (v target : Vec) (distractors : List Vec) : List (Option ℝ) :=
  some (m.sim v target / m.logitTemp) :: distractors.map fun d =>
    if ∀ j < m.finalDim, target j = d j then none else some (m.sim v d / m.logitTemp)

/-- `quantize_and_contrast` (model.py:169-207), from the encoder output and the targets: the logits, and the inputs of the
quantizer. -/
noncomputable def Wav2Vec2.contrast (m : Wav2Vec2) (d : Draws) (output targets : Batch Vec) (M : Mask) :
    Option (List (List (List (Option ℝ)))) :=
  (extractMasked M output).bind fun seqs =>
    let seqs := seqs.map (List.map m.finalProj)
    let n := width targets
    let targets := targets.mapIdx fun r row => row.mapIdx fun i v => m.targetProj (m.quantizer.quantize d.noise (r * n + i) v)
    (sampleDistractors m.numDistractors d.randint targets).map fun distractors =>
      List.zipWith (fun xs y => List.zipWith (fun v z => m.logits v z.1 z.2) xs y) seqs
        (List.zipWith List.zip targets distractors)

/-- `cross_entropy` for one row of logits and target 0. -/
noncomputable def crossEntropy0 (row : List (Option ℝ)) : ℝ :=
  match row with
  | some x :: _ => - (x - Real.log ((row.map fun y => match y with | none => 0 | some y => Real.exp y).sum))
  | _ => 0

/-- `compute_contrastive_loss` (model.py:308-320): positions first, then rows. -/
noncomputable def contrastiveLoss (logits : List (List (List (Option ℝ)))) : ℝ :=
  (((List.range (width logits)).flatMap fun s => logits.map fun row => (row[s]?).getD []).map crossEntropy0).sum

/-- `compute_diversity_loss` (model.py:322-329). -/
noncomputable def diversityLoss (q : Quantizer) (perplexity : ℝ) (numTargets : Nat) : ℝ :=
  let num : ℝ := q.codebooks * q.numEntries
  (num - perplexity) / num * numTargets

/-- `compute_features_penalty` (model.py:331-334): the mean over all frames of the tensor. -/
noncomputable def featuresPenalty (dim : Nat) (raw : Batch Vec) (numTargets : Nat) : ℝ :=
  (raw.map fun row => (row.map fun v => ((List.range dim).map fun j => v j ^ 2).sum).sum).sum /
    (raw.length * width raw * dim : Nat) * numTargets

/-- `Wav2Vec2Loss` and the logits. -/
structure Result where
  aggregate : ℝ
  contrastive : ℝ
  diversity : ℝ
  penalty : ℝ
  logits : List (List (List (Option ℝ)))
  mask : Mask
  numTargets : Nat

/-- `Wav2Vec2Model.forward` (model.py:102-120, 279-306) as `Wav2Vec2SslCriterion` calls it (criterion.py:65-90). -/
noncomputable def Wav2Vec2.forward (m : Wav2Vec2) (d : Draws) (diversityWeight penaltyWeight : ℝ) (rows : Batch Vec) (l : Layout) :
    Option Result :=
  (m.features d rows l).bind fun x =>
    (m.contrast d x.1 x.2.1 x.2.2.1).map fun logits =>
      let n := logits.length * width logits
      let a := contrastiveLoss logits
      let b := diversityLoss m.quantizer (m.quantizer.perplexity x.2.1.flatten) n
      let c := featuresPenalty m.featureDim x.2.2.2 n
      ⟨a + diversityWeight * b + penaltyWeight * c, a, b, c, logits, x.2.2.1, n⟩

end Fs2.Contrast
