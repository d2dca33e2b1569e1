import Verif.Pipeline.Multi

/-!
# Operators that buffer examples: shuffle, bucket_by_length, dynamic_bucket, pack,
parallel map, yield_from and sample
-/

namespace Fs2

/-! ## Random number generators -/

/-- `at::CPUGeneratorImpl` as `shuffle` and `sample` use it: what a seed gives, the
draws `random64()` and `random()`, and its state as a tensor (`get_state`,
`set_state`).  Nothing is assumed about the numbers drawn. -/
structure Rng where
  G : Type
  seed : Nat → G
  draw64 : G → Nat × G
  draw32 : G → Nat × G
  enc : G → List Int
  dec : List Int → Option G
  dec_enc : ∀ g, dec (enc g) = some g

/-- `conditional_cast<std::int64_t>` of an unsigned 64-bit value
(tape-inl.h:46-47): two's complement. -/
def toI64 (n : Nat) : Int :=
  if n < 2 ^ 63 then n else (n : Int) - 2 ^ 64

/-- `generator_.set_state(t.read<at::Tensor>())` (shuffle_data_source.cc:150,
sample_data_source.cc:140). -/
def readGen (R : Rng) (t : Tape) : Except Err (R.G × Tape) :=
  match readTensor t with
  | .error e => .error e
  | .ok (xs, t) => match R.dec xs with
    | none => .error corrupt
    | some g => .ok (g, t)

/-! ## shuffle -/

/-- `swap(buffer_[i], buffer_[j])`; nothing happens for an index out of range,
which the callers exclude. -/
def swapAt {α : Type} (xs : List α) (i j : Nat) : List α :=
  match xs[i]?, xs[j]? with
  | some a, some b => (xs.set i b).set j a
  | _, _ => xs

/-- `shuffle_data_source::shuffle` (shuffle_data_source.cc:161-178): Fisher-Yates
on the first `s` elements. -/
def fisherYates (R : Rng) : Nat → List Data → R.G → List Data × R.G
  | 0, xs, g => (xs, g)
  | 1, xs, g => (xs, g)
  | s + 2, xs, g =>
    let (r, g) := R.draw64 g
    fisherYates R (s + 1) (swapAt xs (s + 1) (r % (s + 2))) g

/-- The fields of `shuffle_data_source` (shuffle_data_source.h:50-57); `pos` and
`stop` are the distances of `buffer_pos_` and `buffer_end_` from
`buffer_.begin()`. -/
structure ShuffleSt (R : Rng) (σ : Type) where
  buf : List Data
  pos : Nat
  stop : Nat
  fill : Bool
  seed : Nat
  gen : R.G
  inner : σ

/-- `if (++buffer_pos_ == buffer_.end()) buffer_pos_ = buffer_.begin()`
(shuffle_data_source.cc:88-89). -/
def bump (pos len : Nat) : Nat := if pos + 1 = len then 0 else pos + 1

/-- `if (buffer_pos_ == buffer_.begin()) shuffle()`
(shuffle_data_source.cc:68-69). -/
def shuffleMix (R : Rng) {σ : Type} (s : ShuffleSt R σ) : List Data × R.G :=
  if s.pos = 0 then fisherYates R s.stop s.buf s.gen else (s.buf, s.gen)

/-- Taking the example at `buffer_pos_` out and refilling its place
(shuffle_data_source.cc:71-91).  Simplification: when the upstream throws, C++
leaves a moved-from value at `buffer_pos_`; here the value stays. -/
def shuffleTake (R : Rng) (S : Source) (s : ShuffleSt R S.σ) :
    Option (Res × ShuffleSt R S.σ) :=
  if s.stop = s.buf.length then
    match S.next s.inner with
    | none => none
    | some (.err e, i) => some (.err e, { s with inner := i })
    | some (.yield x, i) =>
      some (.yield (s.buf.getD s.pos default),
        { s with buf := s.buf.set s.pos x, pos := bump s.pos s.buf.length, inner := i })
    | some (.eod, i) =>
      some (.yield (s.buf.getD s.pos default),
        { s with pos := bump s.pos s.buf.length, stop := s.pos, inner := i })
  else
    some (.yield (s.buf.getD s.pos default), { s with pos := bump s.pos s.buf.length })

/-- `shuffle_data_source::next` after the buffer has been filled
(shuffle_data_source.cc:62-91). -/
def shuffleStep (R : Rng) (S : Source) (s : ShuffleSt R S.σ) :
    Option (Res × ShuffleSt R S.σ) :=
  if s.pos = s.stop then some (.eod, s)
  else shuffleTake R S { s with buf := (shuffleMix R s).1, gen := (shuffleMix R s).2 }

/-- The window the constructor uses (shuffle_data_source.cc:27-30). -/
def shuffleWindow (w : Nat) : Nat := if w = 0 then 2 ^ 64 - 1 else w

/-- `shuffle_data_source::next` (shuffle_data_source.cc:37-92). -/
def shuffleNext (R : Rng) (w : Nat) (S : Source) (s : ShuffleSt R S.σ) :
    Option (Res × ShuffleSt R S.σ) :=
  if shuffleWindow w = 1 then
    match S.next s.inner with
    | none => none
    | some (r, i) => some (r, { s with inner := i })
  else if s.fill then
    match readUpTo S.next (shuffleWindow w) s.buf s.inner with
    | none => none
    | some (⟨xs, _, some e⟩, i) => some (.err e, { s with buf := xs, inner := i })
    | some (⟨xs, _, none⟩, i) =>
      shuffleStep R S { s with buf := xs, pos := 0, stop := xs.length, fill := false, inner := i }
  else shuffleStep R S s

/-- `shuffle_data_source` (shuffle_data_source.cc:21-178).  `seed` is the seed the
constructor was given or drew. -/
def shuffle (R : Rng) (w seed : Nat) (S : Source) : Source where
  σ := ShuffleSt R S.σ
  init := ⟨[], 0, 0, true, seed, R.seed seed, S.init⟩
  next := shuffleNext R w S
  reset b s := ⟨[], 0, 0, true, s.seed, if b then R.seed s.seed else s.gen, S.reset b s.inner⟩
  record strict s := match S.record strict s.inner with
    | .error e => .error e
    | .ok t =>
      let tail : Tape := .int (toI64 s.seed) :: .tensor (R.enc s.gen) :: t
      .ok (if strict then .list s.buf :: .int s.pos :: .int s.stop :: .bool s.fill :: tail else tail)
  reload strict s t :=
    let rest (buf : List Data) (pos stop : Nat) (fill : Bool) (t : Tape) :
        Except Err (ShuffleSt R S.σ × Tape) :=
      match readNat t with
      | .error e => .error e
      | .ok (seed, t) => match readGen R t with
        | .error e => .error e
        | .ok (g, t) => match S.reload strict s.inner t with
          | .error e => .error e
          | .ok (i, t) => .ok (⟨buf, pos, stop, fill, seed, g, i⟩, t)
    if strict then
      match readList t with
      | .error e => .error e
      | .ok (buf, t) => match readNat t with
        | .error e => .error e
        | .ok (pos, t) => match readNat t with
          | .error e => .error e
          | .ok (stop, t) => match readBool t with
            | .error e => .error e
            | .ok (fill, t) => rest buf pos stop fill t
    else rest [] 0 0 true t
  finitude := S.finitude

/-! ## bucket_by_length -/

/-- The arguments of `bucket_by_length` (bucket_by_length_data_source.cc:13-34);
`sizes` is sorted by length (data_pipeline.cc:383-387). -/
structure BblCfg where
  sizes : List (Nat × Nat)
  len : Data → Except Err Nat
  minLen : Nat
  skipBelow : Bool
  skipAbove : Bool
  drop : Bool

/-- `bucket_sizes_.back().second` (bucket_by_length_data_source.cc:25). -/
def BblCfg.maxLen (c : BblCfg) : Nat := (c.sizes.getLast?.map (·.2)).getD 0

def bblShortErr : Err :=
  ⟨true, "The length of the input data must be greater than or equal to the minimum bucket data length."⟩

def bblLongErr : Err :=
  ⟨true, "The length of the input data must be less than or equal to the maximum bucket data length."⟩

/-- The search for the smallest bucket that fits
(bucket_by_length_data_source.cc:67-85): the buckets afterwards and the bucket
that became full. -/
def bblPlace : List (Nat × Nat) → List (List Data) → Nat → Data →
    List (List Data) × Option (List Data)
  | (n, l) :: szs, b :: bs, len, x =>
    if len ≤ l then
      if n ≤ (b ++ [x]).length then ([] :: bs, some (b ++ [x])) else ((b ++ [x]) :: bs, none)
    else
      let r := bblPlace szs bs len x
      (b :: r.1, r.2)
  | _, bs, _, _ => (bs, none)

/-- Topping up a bucket from the next smaller ones
(bucket_by_length_data_source.cc:101-115); `k` is `remaining`, the lists are in
descending order of length. -/
def bblPull : Nat → List (List Data) → List Data → List (List Data) × List Data
  | _, [], b => ([], b)
  | k, o :: os, b =>
    let r := bblPull (k - o.length) os (b ++ (o.reverse.take k))
    (o.take (o.length - k) :: r.1, r.2)

/-- The loop over the remaining buckets (bucket_by_length_data_source.cc:92-124),
on lists in descending order of length: the buckets afterwards and the bucket
emitted. -/
def bblFlush (drop : Bool) : List (Nat × Nat) → List (List Data) →
    List (List Data) × Option (List Data)
  | (n, _) :: szs, b :: bs =>
    if b = [] then
      let r := bblFlush drop szs bs
      (b :: r.1, r.2)
    else
      let r := bblPull (n - b.length) bs b
      if drop ∧ r.2.length ≠ n then ([] :: r.1, none) else ([] :: r.1, some r.2)
  | _, bs => (bs, none)

/-- The fields of `bucket_by_length_data_source` that change. -/
structure BblSt (σ : Type) where
  bs : List (List Data)
  inner : σ

/-- `bucket_by_length_data_source::next` (bucket_by_length_data_source.cc:36-127). -/
def bblNext {σ : Type} (next : σ → Option (Res × σ)) (c : BblCfg) (s : BblSt σ) :
    Option (Res × BblSt σ) :=
  match next s.inner with
  | none => none
  | some (.err e, i) => some (.err e, ⟨s.bs, i⟩)
  | some (.eod, i) =>
    match bblFlush c.drop c.sizes.reverse s.bs.reverse with
    | (bs, none) => some (.eod, ⟨bs.reverse, i⟩)
    | (bs, some xs) => some (.yield (.list xs), ⟨bs.reverse, i⟩)
  | some (.yield x, i) =>
    match c.len x with
    | .error e => some (.err e, ⟨s.bs, i⟩)
    | .ok l =>
      if l < c.minLen then
        if c.skipBelow then bblNext next c ⟨s.bs, i⟩ else some (.err bblShortErr, ⟨s.bs, i⟩)
      else if c.maxLen < l then
        if c.skipAbove then bblNext next c ⟨s.bs, i⟩ else some (.err bblLongErr, ⟨s.bs, i⟩)
      else
        match bblPlace c.sizes s.bs l x with
        | (bs, none) => bblNext next c ⟨bs, i⟩
        | (bs, some xs) => some (.yield (.list xs), ⟨bs, i⟩)
partial_fixpoint

/-- `bucket_by_length_data_source` (bucket_by_length_data_source.cc:13-160). -/
def bucketByLength (c : BblCfg) (S : Source) : Source where
  σ := BblSt S.σ
  init := ⟨c.sizes.map (fun _ => []), S.init⟩
  next := bblNext S.next c
  reset b s := ⟨s.bs.map (fun _ => []), S.reset b s.inner⟩
  record strict s := match S.record strict s.inner with
    | .error e => .error e
    | .ok t => .ok (recordVec (fun b => [.list b]) s.bs ++ t)
  reload strict s t := match readVec readList t with
    | .error e => .error e
    | .ok (bs, t) => match S.reload strict s.inner t with
      | .error e => .error e
      | .ok (i, t) => .ok (⟨bs, i⟩, t)
  finitude := S.finitude

/-! ## dynamic_bucket -/

/-- The arguments of `dynamic_bucket` (dynamic_bucket_data_source.cc:13-28). -/
structure DynCfg where
  threshold : Rat
  cost : Data → Except Err Rat
  create : Option (List Data → Except Err (List Data × List Data))
  min : Option Nat
  max : Option Nat
  drop : Bool

/-- `bucket_ready` (dynamic_bucket_data_source.cc:44-58). -/
def DynCfg.ready (c : DynCfg) (cost : Rat) (size : Nat) : Bool :=
  (decide (c.threshold ≤ cost) && (match c.min with | none => true | some m => decide (m ≤ size)))
    || (match c.max with | none => false | some m => decide (m ≤ size))

/-- The fields of `dynamic_bucket_data_source` that change
(dynamic_bucket_data_source.h:55-56). -/
structure DynSt (σ : Type) where
  ret : List Data
  buf : List Data
  inner : σ

/-- The reading loop (dynamic_bucket_data_source.cc:60-66): the cost reached and
the exception that ended the loop, if any. -/
def dynFill {σ : Type} (next : σ → Option (Res × σ)) (c : DynCfg) (cost : Rat) (s : DynSt σ) :
    Option ((Option Err × Rat) × DynSt σ) :=
  if c.ready cost s.buf.length then some ((none, cost), s)
  else match next s.inner with
    | none => none
    | some (.eod, i) => some ((none, cost), ⟨s.ret, s.buf, i⟩)
    | some (.err e, i) => some ((some e, cost), ⟨s.ret, s.buf, i⟩)
    | some (.yield x, i) => match c.cost x with
      | .error e => some ((some e, cost), ⟨s.ret, s.buf, i⟩)
      | .ok q => dynFill next c (cost + q) ⟨s.ret, s.buf ++ [x], i⟩
partial_fixpoint

def dynUndefined : Err := ⟨false, "undefined behaviour: front() of an empty deque"⟩

/-- `dynamic_bucket_data_source::next` (dynamic_bucket_data_source.cc:30-93). -/
def dynNext (S : Source) (c : DynCfg) (s : DynSt S.σ) : Option (Res × DynSt S.σ) :=
  match s.ret with
  | x :: xs => some (.yield x, ⟨xs, s.buf, s.inner⟩)
  | [] => match dynFill S.next c 0 s with
    | none => none
    | some ((some e, _), s) => some (.err e, s)
    | some ((none, cost), s) =>
      if s.buf = [] then some (.eod, s)
      else if c.ready cost s.buf.length then
        match c.create with
        | none => some (.yield (.list s.buf), ⟨s.ret, [], s.inner⟩)
        | some f => match f s.buf with
          | .error e => some (.err e, ⟨s.ret, [], s.inner⟩)
          | .ok ([], new) => some (.err dynUndefined, ⟨s.ret, new, s.inner⟩)
          | .ok (x :: xs, new) => some (.yield x, ⟨xs, new, s.inner⟩)
      else if c.drop then some (.eod, ⟨s.ret, [], s.inner⟩)
      else some (.yield (.list s.buf), ⟨s.ret, [], s.inner⟩)

/-- `dynamic_bucket_data_source` (dynamic_bucket_data_source.cc:13-124).
`return_buffer_` is neither recorded nor cleared by `reset`, and `buffer_` is
recorded only with a bucket creation function (lines 95-118). -/
def dynamicBucket (c : DynCfg) (S : Source) : Source where
  σ := DynSt S.σ
  init := ⟨[], [], S.init⟩
  next := dynNext S c
  reset b s := ⟨s.ret, [], S.reset b s.inner⟩
  record strict s := match S.record strict s.inner with
    | .error e => .error e
    | .ok t => .ok (if c.create.isSome then .list s.buf :: t else t)
  reload strict s t :=
    if c.create.isSome then
      match readList t with
      | .error e => .error e
      | .ok (buf, t) => match S.reload strict s.inner t with
        | .error e => .error e
        | .ok (i, t) => .ok (⟨s.ret, buf, i⟩, t)
    else match S.reload strict s.inner t with
      | .error e => .error e
      | .ok (i, t) => .ok (⟨s.ret, s.buf, i⟩, t)
  finitude := S.finitude

/-! ## pack -/

/-- The arguments of `pack` (packed_data_source.h:21-40); pinned memory has no
effect on values. -/
structure PackCfg where
  cap : Nat
  maxLen : Nat
  pad : Int
  truncate : Bool
  drop : Bool

/-- The fields of `packed_data_source` that change. -/
structure PackSt (σ : Type) where
  rem : Option (List Int)
  inner : σ

/-- The local variables of `packed_data_source::next`
(packed_data_source.cc:21-27): `batch` is the tensor before padding, so `fill_pos`
is its length, and `defined` tells `batch.defined()`. -/
structure Pack where
  defined : Bool
  toks : List Int
  lens : List Nat

def packTypeErr : Err := ⟨true, "The pack operation can only be used with tensor inputs."⟩
def packLongErr : Err := ⟨true, "The input tensor is too long to pack."⟩

/-- What one round of the loop does with a sequence
(packed_data_source.cc:57-102): go on with a longer pack, stop with the pack
(`filled` tells whether it is full), or throw. -/
inductive PackStep where
  | more (p : Pack) (rem : Option (List Int))
  | stop (p : Pack) (filled : Bool) (rem : Option (List Int))
  | fail

def packStep (c : PackCfg) (p : Pack) (t : List Int) : PackStep :=
  if t = [] then .more ⟨true, p.toks, p.lens⟩ none
  else
    let fill := min t.length (min (c.cap - p.toks.length) c.maxLen)
    let full := decide (p.toks.length + fill = c.cap)
    if fill < t.length then
      if c.truncate then
        let rem := some (if full then t.drop (fill - 1) else t.drop fill)
        let p' : Pack := ⟨true, p.toks ++ t.take fill, p.lens ++ [fill]⟩
        if full then .stop p' true rem else .more p' rem
      else if p.toks.length = 0 then .fail
      else .stop ⟨true, p.toks, p.lens⟩ false (some t)
    else
      let p' : Pack := ⟨true, p.toks ++ t, p.lens ++ [fill]⟩
      if full then .stop p' true none else .more p' none

/-- The dictionary returned (packed_data_source.cc:112-119).  `seqs` is the batch
filled up with the padding value. -/
def packOut (c : PackCfg) (p : Pack) : Data :=
  .dict [("seqs", .tensor (p.toks ++ List.replicate (c.cap - p.toks.length) c.pad)),
         ("seq_lens", .list (p.lens.map fun (n : Nat) => .int n))]

/-- The end of `packed_data_source::next` (packed_data_source.cc:107-121). -/
def packEnd (c : PackCfg) (p : Pack) (filled : Bool) : Res :=
  if c.truncate ∧ filled = false ∧ c.drop then .eod
  else if p.defined then .yield (packOut c p) else .eod

/-- `packed_data_source::next` (packed_data_source.cc:19-122).  Simplification: a
tensor is one dimensional. -/
def packLoop {σ : Type} (next : σ → Option (Res × σ)) (c : PackCfg) (p : Pack) (s : PackSt σ) :
    Option (Res × PackSt σ) :=
  match s.rem with
  | some t => match packStep c p t with
    | .more p rem => packLoop next c p ⟨rem, s.inner⟩
    | .stop p filled rem => some (packEnd c p filled, ⟨rem, s.inner⟩)
    | .fail => some (.err packLongErr, ⟨none, s.inner⟩)
  | none => match next s.inner with
    | none => none
    | some (.eod, i) => some (packEnd c p false, ⟨none, i⟩)
    | some (.err e, i) => some (.err e, ⟨none, i⟩)
    | some (.yield (.tensor t), i) => match packStep c p t with
      | .more p rem => packLoop next c p ⟨rem, i⟩
      | .stop p filled rem => some (packEnd c p filled, ⟨rem, i⟩)
      | .fail => some (.err packLongErr, ⟨none, i⟩)
    | some (.yield _, i) => some (.err packTypeErr, ⟨none, i⟩)
partial_fixpoint

/-- `packed_data_source` (packed_data_source.cc:19-160).  `reload_position` leaves
an old remainder in place if the tape has none (lines 148-151). -/
def pack (c : PackCfg) (S : Source) : Source where
  σ := PackSt S.σ
  init := ⟨none, S.init⟩
  next := packLoop S.next c ⟨false, [], []⟩
  reset b s := ⟨none, S.reset b s.inner⟩
  record strict s := match S.record strict s.inner with
    | .error e => .error e
    | .ok t => .ok (match s.rem with
      | some r => .bool true :: .tensor r :: t
      | none => .bool false :: t)
  reload strict s t := match readBool t with
    | .error e => .error e
    | .ok (true, t) => match readTensor t with
      | .error e => .error e
      | .ok (r, t) => match S.reload strict s.inner t with
        | .error e => .error e
        | .ok (i, t) => .ok (⟨some r, i⟩, t)
    | .ok (false, t) => match S.reload strict s.inner t with
      | .error e => .error e
      | .ok (i, t) => .ok (⟨s.rem, i⟩, t)
  finitude := S.finitude

/-! ## map with several calls at a time, deterministic -/

/-- `buffer_`, `buffer_pos_` and the upstream of `map_data_source`. -/
structure MapSt (σ : Type) where
  buf : List (Option Data)
  pos : Nat
  inner : σ

/-- The `for` loop over the buffer (map_data_source.cc:57-65): the example and its
index. -/
def mapScan : List (Option Data) → Nat → Option (Data × Nat)
  | [], _ => none
  | some x :: _, k => some (x, k)
  | none :: xs, k => mapScan xs (k + 1)

/-- `map_data_source::next`, deterministic and with `n > 1`
(map_data_source.cc:54-67) with `fill_buffer` (lines 168-199).  Simplifications:
the function does not throw, and is applied to the elements of the buffer one by
one (that the schedule of `parallel_for` does not matter is
`Verif/Pipeline/ParallelFor.lean`).  When the upstream throws during `fill_buffer`
the buffer holds the examples read so far, unmapped, and `buffer_pos_` keeps
its distance from the beginning (the buffer was reserved by the constructor and
does not move). -/
def mapParNext (S : Source) (f : Data → Data) (n : Nat) (s : MapSt S.σ) :
    Option (Res × MapSt S.σ) :=
  match mapScan (s.buf.drop s.pos) s.pos with
  | some (x, k) => some (.yield x, ⟨s.buf.set k none, k + 1, s.inner⟩)
  | none => match readUpTo S.next n [] s.inner with
    | none => none
    | some (⟨xs, _, some e⟩, i) => some (.err e, ⟨xs.map some, s.pos, i⟩)
    | some (⟨[], _, none⟩, i) => some (.eod, ⟨[], 0, i⟩)
    | some (⟨x :: xs, _, none⟩, i) =>
      some (.yield (f x), ⟨none :: xs.map (fun y => some (f y)), 1, i⟩)

/-- `map_data_source` with `num_parallel_calls = n > 1` and `deterministic`
(map_data_source.cc:25-199). -/
def mapPar (f : Data → Data) (n : Nat) (S : Source) : Source where
  σ := MapSt S.σ
  init := ⟨[], 0, S.init⟩
  next := mapParNext S f n
  reset b s := ⟨[], 0, S.reset b s.inner⟩
  record strict s := match S.record strict s.inner with
    | .error e => .error e
    | .ok t => .ok (if strict then
        recordVec (recordOpt (fun d => [d])) s.buf ++ .int s.pos :: t else t)
  reload strict s t :=
    if strict then
      match readVec (readOpt readData) t with
      | .error e => .error e
      | .ok (buf, t) => match readNat t with
        | .error e => .error e
        | .ok (pos, t) => match S.reload strict s.inner t with
          | .error e => .error e
          | .ok (i, t) => .ok (⟨buf, pos, i⟩, t)
    else match S.reload strict s.inner t with
      | .error e => .error e
      | .ok (i, t) => .ok (⟨[], 0, i⟩, t)
  finitude := S.finitude

/-! ## yield_from -/

/-- What the user function gives for an example: a pipeline, or an exception. -/
structure YieldFn where
  pipe : Data → Source
  err : Data → Option Err

/-- The fields of `yield_from_data_source`.  `dp = none` is the default
constructed `data_pipeline`, which has no source and is always at its end
(data_pipeline.cc:51-52). -/
structure YieldSt (F : YieldFn) (σ : Type) where
  cur : Option Data
  dp : Option ((x : Data) × (F.pipe x).σ)
  inner : σ

def yieldInfErr : Err := ⟨true, "The data pipeline to yield from cannot be infinite."⟩

/-- `data_pipeline_.next()` (yield_from_data_source.cc:18-20) on the current
pipeline: `none` in the result stands for end of data. -/
def yieldCur (F : YieldFn) (dp : Option ((x : Data) × (F.pipe x).σ)) :
    Option (Option Res × Option ((x : Data) × (F.pipe x).σ)) :=
  match dp with
  | none => some (none, none)
  | some ⟨x, d⟩ => match (F.pipe x).next d with
    | none => none
    | some (.eod, d) => some (none, some ⟨x, d⟩)
    | some (.yield y, d) => some (some (.yield y), some ⟨x, d⟩)
    | some (.err e, d) => some (some (.err e), some ⟨x, d⟩)

/-- The loop of `yield_from_data_source::next` with `load_next_data_pipeline`
(yield_from_data_source.cc:15-25, 81-99).  After "cannot be infinite" C++ leaves a
moved-from example; here the example stays. -/
def yieldNext (F : YieldFn) {σ : Type} (next : σ → Option (Res × σ)) (s : YieldSt F σ) :
    Option (Res × YieldSt F σ) :=
  match yieldCur F s.dp with
  | none => none
  | some (some r, dp) => some (r, ⟨s.cur, dp, s.inner⟩)
  | some (none, dp) => match next s.inner with
    | none => none
    | some (.err e, i) => some (.err e, ⟨s.cur, dp, i⟩)
    | some (.eod, i) => some (.eod, ⟨none, none, i⟩)
    | some (.yield x, i) => match F.err x with
      | some e => some (.err e, ⟨some x, dp, i⟩)
      | none =>
        if (F.pipe x).finitude = .finite then
          yieldNext F next ⟨some x, some ⟨x, (F.pipe x).init⟩, i⟩
        else some (.err yieldInfErr, ⟨some x, none, i⟩)
partial_fixpoint

/-- `yield_from_data_source` (yield_from_data_source.cc:15-105). -/
def yieldFrom (F : YieldFn) (S : Source) : Source where
  σ := YieldSt F S.σ
  init := ⟨none, none, S.init⟩
  next := yieldNext F S.next
  reset b s := ⟨none, none, S.reset b s.inner⟩
  record strict s := match S.record strict s.inner with
    | .error e => .error e
    | .ok t =>
      if strict then
        match s.cur with
        | none => .ok (.bool false :: t)
        | some x => match s.dp with
          | none => .ok (.bool true :: x :: .bool true :: t)
          | some ⟨y, d⟩ => match (F.pipe y).record strict d with
            | .error e => .error e
            | .ok t' => .ok (.bool true :: x :: (t' ++ t))
      else .ok t
  reload strict s t :=
    let rest (cur : Option Data) (dp : Option ((x : Data) × (F.pipe x).σ)) (t : Tape) :
        Except Err (YieldSt F S.σ × Tape) :=
      match S.reload strict s.inner t with
      | .error e => .error e
      | .ok (i, t) => .ok (⟨cur, dp, i⟩, t)
    if strict then
      match readOpt readData t with
      | .error e => .error e
      | .ok (none, t) => rest none none t
      | .ok (some x, t) => match F.err x with
        | some e => .error e
        | none => match (F.pipe x).reload strict (F.pipe x).init t with
          | .error e => .error e
          | .ok (d, t) => rest (some x) (some ⟨x, d⟩) t
    else rest none none t
  finitude := S.finitude

/-! ## sample -/

/-- The fields of `sample_data_source` that change (sample_data_source.h). -/
structure SampleSt (R : Rng) {n : Nat} (Ss : Fin n → Source) where
  buf : List (Option Data)
  done : List Bool
  cums : List Rat
  seed : Nat
  gen : R.G
  st : States Ss

/-- `are_close` (float.h:36-48) on exact numbers. -/
def areClose (a b : Rat) : Bool :=
  a == b || (let d := if a ≤ b then b - a else a - b
             let m := max (max a (-a)) (max b (-b))
             decide (d < m / 10000))

/-- Cumulative sums (sample_data_source.cc:38-44). -/
def cumsumFrom (acc : Rat) : List Rat → List Rat
  | [] => []
  | w :: ws => (acc + w) :: cumsumFrom (acc + w) ws

/-- `if (!are_close(sum, 1.0F)) for (s : weight_cumsums_) s /= sum`
(sample_data_source.cc:46-50, 228-233).  Simplification: exact numbers; a sum of
zero, NaN in C++, divides to zero. -/
def normalise (sum : Rat) (cs : List Rat) : List Rat :=
  if areClose sum 1 then cs else cs.map (· / sum)

/-- The weights the constructor computes (sample_data_source.cc:36-50). -/
def initCums (ws : List Rat) : List Rat :=
  let cs := cumsumFrom 0 ws
  normalise (cs.getLastD 0) cs

/-- `sample_data_source::block` (sample_data_source.cc:214-234). -/
def blockCums (cs : List Rat) (i : Nat) : List Rat :=
  let prev := if i = 0 then 0 else cs.getD (i - 1) 0
  let w := cs.getD i 0 - prev
  let cs := cs.take i ++ [prev] ++ (cs.drop (i + 1)).map (· - w)
  normalise (cs.getLastD 0) cs

/-- The binary search of `random_pipeline_index` (sample_data_source.cc:161-171). -/
def searchCums (cs : List Rat) (x : Rat) (l r : Nat) : Nat :=
  if h : l < r then
    let m := l + (r - l) / 2
    if cs.getD m 0 < x then searchCums cs x (m + 1) r else searchCums cs x l m
  else l
termination_by r - l
decreasing_by all_goals omega

/-- The search for a pipeline that is not done (sample_data_source.cc:176-184);
`none` if it runs past the end of the vector, which is undefined behaviour (the
`assert` is compiled out in release builds). -/
def skipDone : List Bool → Nat → Option Nat
  | [], _ => none
  | false :: _, k => some k
  | true :: ds, k => skipDone ds (k + 1)

/-- `at::transformation::uniform_real` with 24 bits of a 32-bit draw
(sample_data_source.cc:159). -/
def uniform (x : Nat) : Rat := (x % 2 ^ 24 : Nat) / (2 ^ 24 : Nat)

/-- `random_pipeline_index` (sample_data_source.cc:154-187). -/
def sampleIndex (R : Rng) (repeats : Bool) (cs : List Rat) (done : List Bool) (g : R.G) :
    Option Nat × R.G :=
  let (x, g) := R.draw32 g
  let l := searchCums cs (uniform x) 0 (cs.length - 1)
  (if repeats then some l else skipDone (done.drop l) l, g)

def sampleEmptyErr : Err := ⟨false, "The data pipeline is empty and cannot be sampled."⟩
def sampleUndefined : Err := ⟨false, "undefined behaviour: index past the end of is_epoch_done_"⟩

/-- `next_in_pipeline` (sample_data_source.cc:189-212): the example, or the
exception, and the state afterwards. -/
def sampleFetch (R : Rng) {n : Nat} (Ss : Fin n → Source) (repeats : Bool) (i : Fin n)
    (s : SampleSt R Ss) : Option (Except Err (Option Data) × SampleSt R Ss) :=
  match (Ss i).next (s.st i) with
  | none => none
  | some (.err e, t) => some (.error e, { s with st := upd s.st i t })
  | some (.yield x, t) =>
    some (.ok (some x),
      { s with done := markDone s.done i ((Ss i).finitude = .pseudoInfinite), st := upd s.st i t })
  | some (.eod, t) =>
    if repeats then
      match (Ss i).next ((Ss i).reset false t) with
      | none => none
      | some (.err e, t) => some (.error e, { s with done := s.done.set i true, st := upd s.st i t })
      | some (.yield x, t) =>
        some (.ok (some x), { s with done := s.done.set i true, st := upd s.st i t })
      | some (.eod, t) =>
        some (.error sampleEmptyErr, { s with done := s.done.set i true, st := upd s.st i t })
    else
      some (.ok none,
        { s with done := s.done.set i true, cums := blockCums s.cums i, st := upd s.st i t })

/-- The first round of examples (sample_data_source.cc:76-79). -/
def sampleGather (R : Rng) {n : Nat} (Ss : Fin n → Source) (repeats : Bool) :
    List (Fin n) → SampleSt R Ss → Option (Option Err × SampleSt R Ss)
  | [], s => some (none, s)
  | i :: is, s => match sampleFetch R Ss repeats i s with
    | none => none
    | some (.error e, s) => some (some e, s)
    | some (.ok m, s) => sampleGather R Ss repeats is { s with buf := s.buf ++ [m] }

/-- The draw and the exchange (sample_data_source.cc:81-82).  An empty optional in
the buffer is returned as it is: end of data. -/
def sampleDraw (R : Rng) {n : Nat} (Ss : Fin n → Source) (repeats : Bool) (s : SampleSt R Ss) :
    Option (Res × SampleSt R Ss) :=
  let (k, g) := sampleIndex R repeats s.cums s.done s.gen
  let s := { s with gen := g }
  match k with
  | none => some (.err sampleUndefined, s)
  | some k =>
    if h : k < n ∧ k < s.buf.length then
      match sampleFetch R Ss repeats ⟨k, h.1⟩ s with
      | none => none
      | some (.error e, s) => some (.err e, s)
      | some (.ok m, s) =>
        some (match s.buf.getD k none with | some x => .yield x | none => .eod,
          { s with buf := s.buf.set k m })
    else some (.err sampleUndefined, s)

/-- `sample_data_source::next` (sample_data_source.cc:69-83). -/
def sampleNext (R : Rng) {n : Nat} (Ss : Fin n → Source) (repeats : Bool) (s : SampleSt R Ss) :
    Option (Res × SampleSt R Ss) :=
  if n = 0 ∨ s.done.all id then some (.eod, s)
  else match (if s.buf = [] then sampleGather R Ss repeats (List.finRange n) s
      else some (none, s)) with
    | none => none
    | some (some e, s) => some (.err e, s)
    | some (none, s) => sampleDraw R Ss repeats s

/-- `sample_data_source` (sample_data_source.cc:23-246).  `original_weight_cumsums_`
is `initCums ws`. -/
def sample (R : Rng) {n : Nat} (Ss : Fin n → Source) (ws : List Rat) (seed : Nat)
    (repeats : Bool) : Source where
  σ := SampleSt R Ss
  init := ⟨[], List.replicate n false, initCums ws, seed, R.seed seed, fun i => (Ss i).init⟩
  next := sampleNext R Ss repeats
  reset b s := ⟨[], List.replicate n false, if repeats then s.cums else initCums ws, s.seed,
    if b then R.seed s.seed else s.gen, resetAll Ss b s.st⟩
  record strict s := match recordAll Ss strict s.st (List.finRange n) with
    | .error e => .error e
    | .ok t =>
      let tail : Tape := .int (toI64 s.seed) :: .tensor (R.enc s.gen)
        :: (recordVec (fun q => [.num q]) s.cums ++ t)
      .ok (if strict then recordVec (recordOpt (fun d => [d])) s.buf
          ++ (recordVec (fun b => [.bool b]) s.done ++ tail) else tail)
  reload strict s t :=
    let rest (buf : List (Option Data)) (done : List Bool) (t : Tape) :
        Except Err (SampleSt R Ss × Tape) :=
      match readNat t with
      | .error e => .error e
      | .ok (seed, t) => match readGen R t with
        | .error e => .error e
        | .ok (g, t) => match readVec readNum t with
          | .error e => .error e
          | .ok (cums, t) => match reloadAll Ss strict (List.finRange n) s.st t with
            | .error e => .error e
            | .ok (st, t) => .ok (⟨buf, done, cums, seed, g, st⟩, t)
    if strict then
      match readVec (readOpt readData) t with
      | .error e => .error e
      | .ok (buf, t) => match readVec readBool t with
        | .error e => .error e
        | .ok (done, t) => rest buf done t
    else rest [] (List.replicate n false) t
  finitude := maxFinitude Ss

end Fs2
