/-!
# Data sources: the interface every operator of a data pipeline implements

Model of `native/src/fairseq2n/data/data_source.h` (lines 18-47) and of the parts
of `data.h` and `tape.h` it needs.

A C++ `data_source` is an object with mutable state and five virtual functions.
Here it is a value of type `Source`: a state type, an initial state and one Lean
function per virtual function.  An operator such as `take` becomes a function
`Source → Source`, so what is proved about it holds for every upstream.
-/

namespace Fs2

/-- Example values: `data` (native/src/fairseq2n/data/data.h).  Simplification:
floats are exact rationals, memory blocks and Python objects are left out, a
tensor is the list of its elements (only one dimensional tensors and opaque RNG
states are needed) and a dictionary is an association list. -/
inductive Data where
  | bool (b : Bool)
  | int (i : Int)
  | num (q : Rat)
  | str (s : String)
  | tensor (xs : List Int)
  | list (xs : List Data)
  | dict (kvs : List (String × Data))
  deriving Inhabited

/-- An exception leaving a data source.  `recoverable` is
`data_pipeline_error::recoverable()` (data_pipeline.h); every other exception
type counts as not recoverable. -/
structure Err where
  recoverable : Bool
  msg : String
  deriving Inhabited, DecidableEq

/-- What one call of `next()` returns: an example, `std::nullopt` (end of data)
or an exception. -/
inductive Res where
  | yield (x : Data)
  | eod
  | err (e : Err)

/-- An exception after which a pipeline is broken (data_pipeline.cc:71-72). -/
def Res.fatal : Res → Prop
  | .err e => e.recoverable = false
  | _ => False

/-- `data_source_finitude_type` (data_source.h:18). -/
inductive Finitude where
  | finite | pseudoInfinite | infinite
  deriving DecidableEq, Inhabited

/-- The unread part of a `tape` (tape.h:71-72): the values from the cursor on.
`Verif/Pipeline/Tape.lean` relates this view to storage plus cursor. -/
abbrev Tape := List Data

/-- `data_source` (data_source.h:20-47).

* `next s = none` means that the call never returns (an unbounded C++ loop);
  `some (r, s')` that it returns or throws `r` and leaves the object in `s'`.
* `record` gives the values appended to the tape.
* `reload` consumes values from the front of the tape. -/
structure Source where
  σ : Type
  init : σ
  next : σ → Option (Res × σ)
  reset : Bool → σ → σ
  record : Bool → σ → Except Err Tape
  reload : Bool → σ → Tape → Except Err (σ × Tape)
  finitude : Finitude

/-! ## Reading typed values from a tape (tape-inl.h:87-151, tape.h:75-80) -/

/-- `tape::throw_corrupt` (tape.h:75-80). -/
def corrupt : Err := ⟨false, "The tape is corrupt."⟩

/-- `tape::read<bool>` (tape-inl.h:95-97). -/
def readBool : Tape → Except Err (Bool × Tape)
  | .bool b :: t => .ok (b, t)
  | _ => .error corrupt

/-- `tape::read<std::int64_t>` (tape-inl.h:98-101).  64-bit bounds are not
modelled. -/
def readInt : Tape → Except Err (Int × Tape)
  | .int i :: t => .ok (i, t)
  | _ => .error corrupt

/-- `tape::read<float32>` (tape-inl.h:102-105). -/
def readNum : Tape → Except Err (Rat × Tape)
  | .num q :: t => .ok (q, t)
  | _ => .error corrupt

/-- `tape::read<std::size_t>` (tape-inl.h:98-101); `maybe_narrow` refuses
negative values. -/
def readNat : Tape → Except Err (Nat × Tape)
  | .int (.ofNat n) :: t => .ok (n, t)
  | _ => .error corrupt

/-- `tape::read<data_list>` (tape-inl.h:115-117). -/
def readList : Tape → Except Err (List Data × Tape)
  | .list xs :: t => .ok (xs, t)
  | _ => .error corrupt

/-- `tape::read<at::Tensor>` (tape-inl.h:109-111). -/
def readTensor : Tape → Except Err (List Int × Tape)
  | .tensor xs :: t => .ok (xs, t)
  | _ => .error corrupt

/-- `tape::read<data>` (tape-inl.h:93-94). -/
def readData : Tape → Except Err (Data × Tape)
  | d :: t => .ok (d, t)
  | [] => .error corrupt

/-- The loop of `tape::read<std::vector<U>>` (tape-inl.h:133-134). -/
def readMany {α : Type} (rd : Tape → Except Err (α × Tape)) :
    Nat → Tape → Except Err (List α × Tape)
  | 0, t => .ok ([], t)
  | n + 1, t =>
    match rd t with
    | .error e => .error e
    | .ok (a, t) =>
      match readMany rd n t with
      | .error e => .error e
      | .ok (as, t) => .ok (a :: as, t)

/-- `tape::read<std::vector<U>>` (tape-inl.h:124-138). -/
def readVec {α : Type} (rd : Tape → Except Err (α × Tape)) (t : Tape) :
    Except Err (List α × Tape) :=
  match readNat t with
  | .error e => .error e
  | .ok (n, t) => readMany rd n t

/-- `tape::read<std::optional<U>>` (tape-inl.h:139-145). -/
def readOpt {α : Type} (rd : Tape → Except Err (α × Tape)) (t : Tape) :
    Except Err (Option α × Tape) :=
  match readBool t with
  | .error e => .error e
  | .ok (false, t) => .ok (none, t)
  | .ok (true, t) =>
    match rd t with
    | .error e => .error e
    | .ok (a, t) => .ok (some a, t)

/-- `tape::record(std::vector<T>)` (tape-inl.h:61-73) for `T ≠ data`. -/
def recordVec {α : Type} (wr : α → Tape) (xs : List α) : Tape :=
  .int xs.length :: xs.flatMap wr

/-- `tape::record(std::optional<T>)` (tape-inl.h:75-85). -/
def recordOpt {α : Type} (wr : α → Tape) : Option α → Tape
  | none => [.bool false]
  | some a => .bool true :: wr a

/-! ## Loops shared by several operators -/

/-- The loop

```
for (size_t i = 0; i < n; i++) {
    std::optional<data> maybe_example = inner_->next();
    if (!maybe_example) break;
    acc.push_back(*std::move(maybe_example));
}
```
of `bucket` (bucket_data_source.cc:25-31), `shuffle`
(shuffle_data_source.cc:48-54), `map` (map_data_source.cc:173-179) and, ignoring
the collected examples, `skip` (skip_data_source.cc:18-20) and `shard`
(shard_data_source.cc:28-30, 36-42).  The result is the examples collected so far
together with the exception that ended the loop (`some e`), and whether the loop
was left by `break`. -/
structure Batch where
  xs : List Data
  ended : Bool
  err : Option Err

def readUpTo {σ : Type} (next : σ → Option (Res × σ)) :
    Nat → List Data → σ → Option (Batch × σ)
  | 0, acc, s => some (⟨acc, false, none⟩, s)
  | n + 1, acc, s =>
    match next s with
    | none => none
    | some (.yield x, s') => readUpTo next n (acc ++ [x]) s'
    | some (.eod, s') => some (⟨acc, true, none⟩, s')
    | some (.err e, s') => some (⟨acc, false, some e⟩, s')

end Fs2
