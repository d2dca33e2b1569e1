import Verif.Datasets.AsrReader

/-!
# The data reader of wav2vec 2.0 pretraining

Models `Wav2Vec2SslDataset.create_reader` (`recipes/wav2vec2/ssl/data/dataset.py:202-312`) with `batch_utils.py` and `preprocessing.py` beside it.
Everything before cropping is a pipeline of the builder's operators. Cropping is a `map` whose function has a random number generator
of its own, which no operator of the builder knows of; it is an operator over sources here. Left out, as for speech recognition: `prefetch` and
the parallel calls (C17, C18), reading lines (C22), the check that the directory exists. `StrSplitter` and `int` are one function of the line, `FileMapper` and
`AudioDecoder` one function of the path. Recordings have one channel and samples are integers. The calls of `map` on
the elements of a batch are one call, for examples that have no other keys than the ones named.
-/

namespace Fs2.SslData
open Fs2.Native Fs2.Batch
open Fs2.AsrData (Recording fieldErr audioSize roundedNum)

/-- What is on disk. -/
structure Files where
  /-- The lines of the manifest; the first one names the directory of the recordings. -/
  manifest : List Data
  /-- `StrSplitter(names=["audio", "audio_size"])` and `int` (dataset.py:191-195). -/
  parse : Data → Except Err Data
  /-- The recording at a path (preprocessing.py:19-56). -/
  audio : String → Except Err Recording

/-- `np.random.RandomState`: `randint(0, n)` is below `n`, for any `n` but 0. -/
structure Draws where
  G : Type
  seed : Nat → G
  randint : Nat → G → Nat × G
  lt : ∀ n g, 0 < n → (randint n g).1 < n

/-- The arguments of `create_reader` that the pipeline depends on, but for limits of lengths. -/
structure Options where
  maxNumElements : Nat
  numSeqsMultipleOf : Nat
  exampleShuffleWindow : Nat
  batchShuffleWindow : Nat
  dropRemainder : Bool
  seed : Nat
  maxNumBatches : Option Nat

/-- `_read_manifest` (dataset.py:169-195). -/
def manifestPipe (W : Files) : Pipe := .map W.parse (.skip 1 (.list W.manifest))

/-- Reading, shuffling and sharding (dataset.py:240-250). -/
def examplePipe (W : Files) (rank size : Nat) (o : Options) : Pipe :=
  let p := manifestPipe W
  let p : Pipe := if o.exampleShuffleWindow ≠ 1 then .shuffle o.exampleShuffleWindow o.seed p else p
  if size > 1 then .shard rank size true p else p

/-- The seed for batches (dataset.py:243-250). -/
def batchSeed (rank size : Nat) (o : Options) : Nat :=
  (if o.exampleShuffleWindow ≠ 1 then o.seed + 1 else o.seed) + if size > 1 then rank else 0

/-- Loading and decoding one example (dataset.py:269-284). -/
def loadExample (W : Files) : Data → Except Err Data
  | .dict fields =>
    match fields.lookup "audio", fields.lookup "audio_size" with
    | some (.str path), some size =>
      match W.audio path with
      | .error e => .error e
      | .ok a => .ok (.dict [
          ("audio", .dict [("path", .str path),
            ("data", .dict [("sample_rate", .num a.rate), ("format", .int a.format), ("waveform", .tensor a.wave)])]),
          ("audio_size", size)])
    | _, _ => .error fieldErr
  | _ => .error fieldErr

/-- The same for the elements of a list. -/
def loadAll (W : Files) : List Data → Except Err (List Data)
  | [] => .ok []
  | x :: xs =>
    match loadExample W x with
    | .error e => .error e
    | .ok y =>
      match loadAll W xs with
      | .error e => .error e
      | .ok ys => .ok (y :: ys)

/-- The same for a batch. -/
def loadBatch (W : Files) : Data → Except Err Data
  | .list xs =>
    match loadAll W xs with
    | .error e => .error e
    | .ok ys => .ok (.list ys)
  | _ => .error fieldErr

/-! ### Cropping -/

/-- `_get_nested(item, "audio.data.waveform")` (preprocessing.py:98-104). -/
def waveOf : Data → Option (List Int)
  | .dict a =>
    match a.lookup "audio" with
    | some (.dict b) =>
      match b.lookup "data" with
      | some (.dict c) =>
        match c.lookup "waveform" with
        | some (.tensor t) => some t
        | _ => none
      | _ => none
    | _ => none
  | _ => none

/-- `d[key] = f(d[key])` for a key of the dictionary. -/
def update (key : String) (f : Data → Data) : Data → Data
  | .dict kvs => .dict (kvs.map fun kv => if kv.1 = key then (kv.1, f kv.2) else kv)
  | d => d

/-- `_set_nested(item, "audio.data.waveform", value)` (preprocessing.py:106-115). -/
def setWave (t : List Int) : Data → Data := update "audio" (update "data" (update "waveform" fun _ => .tensor t))

/-- `min(... size(0) for item in batch)` (preprocessing.py:79-84). -/
def shortest : List (List Int) → Nat
  | [] => 0
  | [t] => t.length
  | t :: ts => min t.length (shortest ts)

/-- One waveform (preprocessing.py:90-95). -/
def cropOne (D : Draws) (size : Nat) (g : D.G) (t : List Int) : List Int × D.G :=
  if t.length > size then
    let p := D.randint (t.length - size) g
    ((t.drop p.1).take size, p.2)
  else (t, g)

/-- The loop over the items (preprocessing.py:89-95). -/
def cropItems (D : Draws) (size : Nat) : D.G → List (Data × List Int) → List Data × D.G
  | g, [] => ([], g)
  | g, (x, t) :: xs =>
    let p := cropOne D size g t
    let q := cropItems D size p.2 xs
    (setWave p.1 x :: q.1, q.2)

/-- The waveforms of all items, or `KeyError`. -/
def wavesOf : List Data → Option (List (List Int))
  | [] => some []
  | x :: xs => (waveOf x).bind fun t => (wavesOf xs).map (t :: ·)

/-- `crop_audios_in_batch` with `crop_to_batch_minimal_size` (preprocessing.py:76-96); `min` of an empty batch raises `ValueError`. -/
def cropBatch (D : Draws) (maxLen : Nat) (g : D.G) : Data → Except Err (Data × D.G)
  | .list [] => .error fieldErr
  | .list xs =>
    match wavesOf xs with
    | none => .error fieldErr
    | some ts =>
      let p := cropItems D (min maxLen (shortest ts)) g (xs.zip ts)
      .ok (.list p.1, p.2)
  | _ => .error fieldErr

def cropNext (S : Source) (D : Draws) (maxLen : Nat) (s : S.σ × D.G) : Option (Res × (S.σ × D.G)) :=
  match S.next s.1 with
  | none => none
  | some (.yield x, i) =>
    match cropBatch D maxLen s.2 x with
    | .error e => some (.err e, (i, s.2))
    | .ok (y, g) => some (.yield y, (i, g))
  | some (.eod, i) => some (.eod, (i, s.2))
  | some (.err e, i) => some (.err e, (i, s.2))

/-- `add_audio_cropping` (preprocessing.py:118-132). `reset`, `record_position` and `reload_position` are those of `map`
(map_data_source.cc:90-163): the generator is part of a Python object that they do not see. -/
def cropping (D : Draws) (maxLen seed : Nat) (S : Source) : Source where
  σ := S.σ × D.G
  init := (S.init, D.seed seed)
  next := cropNext S D maxLen
  reset b s := (S.reset b s.1, s.2)
  record st s := match S.record st s.1 with
    | .error e => .error e
    | .ok t => .ok (if st then .int 0 :: .int 0 :: t else t)
  reload st s t :=
    let inner (t : Tape) := match S.reload st s.1 t with
      | .error e => .error e
      | .ok (i, t) => .ok ((i, s.2), t)
    if st then
      match readVec (readOpt readData) t with
      | .error e => .error e
      | .ok (_, t) =>
        match readInt t with
        | .error e => .error e
        | .ok (_, t) => inner t
    else inner t
  finitude := S.finitude

/-! ### The reader -/

/-- `Collater(pad_value=None)` (dataset.py:297). -/
def collater : Collater := ⟨⟨none, 1⟩, []⟩

/-- The exceptions of `create_reader`. -/
inductive ReaderErr where
  /-- `ZeroDivisionError` -/
  | noLength
  /-- raised by `create_bucket_sizes` -/
  | sizes (e : Sizes.Refused)

/-- `create_reader` (dataset.py:202-302) up to `create_sequence_batch`. -/
def createReader (R : Rng) (D : Draws) (W : Files) (rank size minLen maxLen : Nat) (o : Options) : Except ReaderErr Source :=
  let p := examplePipe W rank size o
  if maxLen = 0 then .error .noLength
  else
    match Sizes.create (roundedNum o.maxNumElements maxLen) maxLen minLen o.numSeqsMultipleOf with
    | .error e => .error (.sizes e)
    | .ok sizes =>
      let p : Pipe := .bucketByLength ⟨sizes, audioSize, minLen, true, true, o.dropRemainder⟩ p
      let p : Pipe := if o.batchShuffleWindow ≠ 1 then .shuffle o.batchShuffleWindow (batchSeed rank size o) p else p
      let p : Pipe := .map (loadBatch W) p
      let S := cropping D maxLen (batchSeed rank size o + 1) (p.denote R)
      let S := map collater.call S
      .ok (match o.maxNumBatches with
        | none => S
        | some n => take n S)

/-- `create_sequence_batch` (dataset.py:198-200). -/
def toBatch (d : Data) : Option (SeqBatch Int) :=
  (nodeAt [.key "audio".toList, .key "data".toList, .key "waveform".toList] d).bind fun w =>
    (Sft.matrix w).bind fun rows => SeqBatch.create (Sft.seqsOf rows) none none

end Fs2.SslData
