import Verif.Pipeline.Wrapper

/-!
# Operators with several upstream pipelines
-/

namespace Fs2

/-- One state per upstream. -/
abbrev States {n : Nat} (Ss : Fin n → Source) : Type := (i : Fin n) → (Ss i).σ

/-- Replaces the state of upstream `i`. -/
def upd {n : Nat} {Ss : Fin n → Source} (st : States Ss) (i : Fin n) (s : (Ss i).σ) : States Ss :=
  fun j => if h : j = i then h ▸ s else st j

/-- `for (data_pipeline &pipeline : pipelines_) pipeline.reset(reset_rng)`. -/
def resetAll {n : Nat} (Ss : Fin n → Source) (b : Bool) (st : States Ss) : States Ss :=
  fun i => (Ss i).reset b (st i)

/-- `for (... : pipelines_) pipeline.record_position(t, strict)`. -/
def recordAll {n : Nat} (Ss : Fin n → Source) (strict : Bool) (st : States Ss) :
    List (Fin n) → Except Err Tape
  | [] => .ok []
  | i :: is => match (Ss i).record strict (st i) with
    | .error e => .error e
    | .ok t => match recordAll Ss strict st is with
      | .error e => .error e
      | .ok t' => .ok (t ++ t')

/-- `for (... : pipelines_) pipeline.reload_position(t)`. -/
def reloadAll {n : Nat} (Ss : Fin n → Source) (strict : Bool) :
    List (Fin n) → States Ss → Tape → Except Err (States Ss × Tape)
  | [], st, t => .ok (st, t)
  | i :: is, st, t => match (Ss i).reload strict (st i) t with
    | .error e => .error e
    | .ok (s, t) => reloadAll Ss strict is (upd st i s) t

/-- `std::max_element` over the finitude types (concat_data_source.cc:16-26,
round_robin_data_source.cc:24-33, sample_data_source.cc:57-66); `finite` for no
pipelines.  The order is finite < pseudo-infinite < infinite. -/
def maxFinitude {n : Nat} (Ss : Fin n → Source) : Finitude :=
  if (List.finRange n).any (fun i => (Ss i).finitude = .infinite) then .infinite
  else if (List.finRange n).any (fun i => (Ss i).finitude = .pseudoInfinite) then .pseudoInfinite
  else .finite

/-! ## concat -/

/-- The loop of `concat_data_source::next` (concat_data_source.cc:30-38). -/
def concatLoop {n : Nat} (Ss : Fin n → Source) :
    List (Fin n) → States Ss → Option (Res × States Ss)
  | [], st => some (.eod, st)
  | i :: is, st => match (Ss i).next (st i) with
    | none => none
    | some (.yield x, s) => some (.yield x, upd st i s)
    | some (.err e, s) => some (.err e, upd st i s)
    | some (.eod, s) => concatLoop Ss is (upd st i s)

/-- `concat_data_source` (concat_data_source.cc:13-63). -/
def concat {n : Nat} (Ss : Fin n → Source) : Source where
  σ := States Ss
  init := fun i => (Ss i).init
  next := concatLoop Ss (List.finRange n)
  reset := resetAll Ss
  record st s := recordAll Ss st s (List.finRange n)
  reload st s t := reloadAll Ss st (List.finRange n) s t
  finitude := maxFinitude Ss

/-! ## zip -/

/-- What `fetch_next` finds in one pipeline (zip_data_source.cc:72-81): `is_eod[i]`
is 1, 0 or 2. -/
inductive Fetched where
  | ended
  | normal (x : Data)
  | pseudo (x : Data)

/-- `fetch_next` over all pipelines (zip_data_source.cc:70-87).  Simplification:
one pipeline after the other, as with `disable_parallelism`; the pipelines are
independent, so running them in parallel gives the same unless one of them
throws, when it is schedule dependent which of the others have advanced. -/
def fetchAll {n : Nat} (Ss : Fin n → Source) :
    List (Fin n) → States Ss → Option (Except Err (List Fetched) × States Ss)
  | [], st => some (.ok [], st)
  | i :: is, st => match (Ss i).next (st i) with
    | none => none
    | some (.err e, s) => some (.error e, upd st i s)
    | some (.eod, s) => match fetchAll Ss is (upd st i s) with
      | none => none
      | some (.error e, st) => some (.error e, st)
      | some (.ok fs, st) => some (.ok (.ended :: fs), st)
    | some (.yield x, s) => match fetchAll Ss is (upd st i s) with
      | none => none
      | some (.error e, st) => some (.error e, st)
      | some (.ok fs, st) =>
        some (.ok ((if (Ss i).finitude = .pseudoInfinite then .pseudo x else .normal x) :: fs), st)

/-- `are_eod` (zip_data_source.cc:90-94). -/
def Fetched.isEod : Fetched → Bool
  | .normal _ => false
  | _ => true

/-- `are_not_eod` (zip_data_source.cc:96-100). -/
def Fetched.isNotEod : Fetched → Bool
  | .ended => false
  | _ => true

def Fetched.value : Fetched → Data
  | .ended => default
  | .normal x => x
  | .pseudo x => x

/-- `data_dict::emplace`: an existing key stays. -/
def dictEmplace (d : List (String × Data)) (k : String) (v : Data) : List (String × Data) :=
  if d.any (fun kv => kv.1 == k) then d else d ++ [(k, v)]

def flattenErr : Err :=
  ⟨true, "The zipped data pipelines must all return only dicts or only non-dicts when `flatten` is set."⟩

/-- The inner loop of `flatten_to_dict` (zip_data_source.cc:152-159). -/
def addKeys : List (String × Data) → List (String × Data) → Except Err (List (String × Data))
  | out, [] => .ok out
  | out, (k, v) :: kvs =>
    if out.any (fun kv => kv.1 == k) then
      .error ⟨true, "The zipped data pipelines must all return unique keys when `flatten` is set."⟩
    else addKeys (out ++ [(k, v)]) kvs

/-- `flatten_to_dict` (zip_data_source.cc:143-166). -/
def flattenToDict : List (String × Data) → List Data → Except Err (List (String × Data))
  | out, [] => .ok out
  | out, .dict kvs :: xs => match addKeys out kvs with
    | .error e => .error e
    | .ok out => flattenToDict out xs
  | _, _ :: _ => .error flattenErr

/-- `flatten_to_list` (zip_data_source.cc:168-188). -/
def flattenToList : List Data → List Data → Except Err (List Data)
  | out, [] => .ok out
  | _, .dict _ :: _ => .error flattenErr
  | out, .list ys :: xs => flattenToList (out ++ ys) xs
  | out, x :: xs => flattenToList (out ++ [x]) xs

/-- How the fetched examples become one (zip_data_source.cc:121-140). -/
def zipCombine (names : List String) (flatten : Bool) (xs : List Data) : Except Err Data :=
  if flatten then
    match xs with
    | .dict _ :: _ => match flattenToDict [] xs with
      | .error e => .error e
      | .ok d => .ok (.dict d)
    | _ => match flattenToList [] xs with
      | .error e => .error e
      | .ok l => .ok (.list l)
  else if names = [] then .ok (.list xs)
  else .ok (.dict ((names.zip xs).foldl (fun d kv => dictEmplace d kv.1 kv.2) []))

def zipLengthErr : Err :=
  ⟨false, "The zipped data pipelines must all have the same number of examples."⟩

/-- `zip_data_source::next` (zip_data_source.cc:57-141). -/
def zipNext {n : Nat} (Ss : Fin n → Source) (names : List String) (shortest flatten : Bool)
    (st : States Ss) : Option (Res × States Ss) :=
  if n = 0 then some (.eod, st)
  else match fetchAll Ss (List.finRange n) st with
    | none => none
    | some (.error e, st) => some (.err e, st)
    | some (.ok fs, st) =>
      if !(fs.all Fetched.isEod || fs.all Fetched.isNotEod) then
        if shortest then some (.eod, st) else some (.err zipLengthErr, st)
      else if fs.all Fetched.isEod then some (.eod, st)
      else match zipCombine names flatten (fs.map Fetched.value) with
        | .error e => some (.err e, st)
        | .ok x => some (.yield x, st)

/-- The constructor's choice of finitude (zip_data_source.cc:32-53), as written:
`all_finite` tests `!= finite` and `all_infinite` tests `!= infinite`. -/
def zipFinitude {n : Nat} (Ss : Fin n → Source) : Except Err Finitude :=
  let allFinite := n = 0 ∨ ∀ i, (Ss i).finitude ≠ .finite
  let allInfinite := n ≠ 0 ∧ ∀ i, (Ss i).finitude ≠ .infinite
  if allFinite ∧ allInfinite then .error ⟨false, "Cannot zip only pseudo-infinite pipelines."⟩
  else if allFinite then .ok .finite
  else if allInfinite then .ok .infinite
  else .error ⟨false, "Cannot mix finite and infinite pipelines in zip."⟩

/-- `zip_data_source` (zip_data_source.cc:20-215).  Where the constructor throws
(`zipFinitude` is an error) there is no source; the `finitude` given here for that
case is irrelevant. -/
def zip {n : Nat} (Ss : Fin n → Source) (names : List String) (shortest flatten : Bool) :
    Source where
  σ := States Ss
  init := fun i => (Ss i).init
  next := zipNext Ss names shortest flatten
  reset := resetAll Ss
  record st s := recordAll Ss st s (List.finRange n)
  reload st s t := reloadAll Ss st (List.finRange n) s t
  finitude := match zipFinitude Ss with
    | .ok f => f
    | .error _ => .finite

/-! ## round_robin -/

/-- The fields of `round_robin_data_source` (round_robin_data_source.h). -/
structure RrSt {n : Nat} (Ss : Fin n → Source) where
  buffer : List (Option Data)
  idx : Nat
  done : List Bool
  eod : Bool
  st : States Ss

/-- `round_robin_data_source::next_in_pipeline`
(round_robin_data_source.cc:132-151): the example and whether `is_epoch_done_[i]`
is set.  When the second `next()` throws, the flag is already set. -/
def rrFetch {n : Nat} (Ss : Fin n → Source) (repeats : Bool) (i : Fin n) (st : States Ss) :
    Option (Except Err (Option Data) × Bool × States Ss) :=
  match (Ss i).next (st i) with
  | none => none
  | some (.err e, s) => some (.error e, false, upd st i s)
  | some (.yield x, s) => some (.ok (some x), (Ss i).finitude = .pseudoInfinite, upd st i s)
  | some (.eod, s) =>
    if repeats then
      match (Ss i).next ((Ss i).reset false s) with
      | none => none
      | some (.err e, s) => some (.error e, true, upd st i s)
      | some (.yield x, s) => some (.ok (some x), true, upd st i s)
      | some (.eod, s) => some (.ok none, true, upd st i s)
    else some (.ok none, true, upd st i s)

/-- `is_epoch_done_[i] = true` if `b`. -/
def markDone (done : List Bool) (i : Nat) (b : Bool) : List Bool :=
  if b then done.set i true else done

/-- The first round of examples (round_robin_data_source.cc:50-53).  An exception
leaves the examples gathered so far in the buffer. -/
def rrGather {n : Nat} (Ss : Fin n → Source) (repeats : Bool) :
    List (Fin n) → RrSt Ss → Option (Option Err × RrSt Ss)
  | [], s => some (none, s)
  | i :: is, s => match rrFetch Ss repeats i s.st with
    | none => none
    | some (.error e, d, st) => some (some e, { s with done := markDone s.done i d, st := st })
    | some (.ok m, d, st) =>
      rrGather Ss repeats is
        { s with buffer := s.buffer ++ [m], done := markDone s.done i d, st := st }

/-- The search for a buffered example (round_robin_data_source.cc:59-64); `fuel`
is `buffer_.size() - buffer_idx_`. -/
def rrScan {n : Nat} (Ss : Fin n → Source) (repeats : Bool) :
    Nat → RrSt Ss → Option (Res × RrSt Ss)
  | 0, s => some (.eod, s)
  | fuel + 1, s =>
    match s.buffer[s.idx]? with
    | some (some x) =>
      if h : s.idx < n then
        match rrFetch Ss repeats ⟨s.idx, h⟩ s.st with
        | none => none
        | some (.error e, d, st) => some (.err e, { s with done := markDone s.done s.idx d, st := st })
        | some (.ok m, d, st) =>
          some (.yield x,
            { s with buffer := s.buffer.set s.idx m, idx := s.idx + 1,
                     done := markDone s.done s.idx d, st := st })
      else some (.err corrupt, s)
    | _ => rrScan Ss repeats fuel { s with idx := s.idx + 1 }

/-- `if (buffer_idx_ == buffer_.size()) buffer_idx_ = 0`
(round_robin_data_source.cc:66-67). -/
def rrWrap {n : Nat} {Ss : Fin n → Source} (s : RrSt Ss) : RrSt Ss :=
  if s.idx = s.buffer.length then { s with idx := 0 } else s

/-- `round_robin_data_source::are_all_done` (round_robin_data_source.cc:153-171). -/
def rrAllDone (shortest : Bool) (done : List Bool) : Bool :=
  if shortest then done.any id else done.all id

/-- `round_robin_data_source::next` (round_robin_data_source.cc:36-71). -/
def rrNext {n : Nat} (Ss : Fin n → Source) (shortest repeats : Bool) (s : RrSt Ss) :
    Option (Res × RrSt Ss) :=
  if n = 0 ∨ s.eod then some (.eod, s)
  else if s.idx = 0 ∧ rrAllDone shortest s.done then some (.eod, { s with eod := true })
  else
    match (if s.buffer = [] then rrGather Ss repeats (List.finRange n) s else some (none, s)) with
    | none => none
    | some (some e, s) => some (.err e, s)
    | some (none, s) =>
      match rrScan Ss repeats (s.buffer.length - s.idx) s with
      | none => none
      | some (.err e, s) => some (.err e, s)
      | some (r, s) => some (r, rrWrap s)

/-- `round_robin_data_source` (round_robin_data_source.cc:13-171). -/
def roundRobin {n : Nat} (Ss : Fin n → Source) (shortest repeats : Bool) : Source where
  σ := RrSt Ss
  init := ⟨[], 0, List.replicate n false, false, fun i => (Ss i).init⟩
  next := rrNext Ss shortest repeats
  reset b s := ⟨[], 0, List.replicate n false, false, resetAll Ss b s.st⟩
  record strict s := match recordAll Ss strict s.st (List.finRange n) with
    | .error e => .error e
    | .ok t => .ok (if strict then
        recordVec (recordOpt (fun d => [d])) s.buffer ++ [.int s.idx]
          ++ recordVec (fun b => [.bool b]) s.done ++ t
      else t)
  reload strict s t :=
    if strict then
      match readVec (readOpt readData) t with
      | .error e => .error e
      | .ok (buffer, t) => match readNat t with
        | .error e => .error e
        | .ok (idx, t) => match readVec readBool t with
          | .error e => .error e
          | .ok (done, t) => match reloadAll Ss strict (List.finRange n) s.st t with
            | .error e => .error e
            | .ok (st, t) => .ok (⟨buffer, idx, done, false, st⟩, t)
    else match reloadAll Ss strict (List.finRange n) s.st t with
      | .error e => .error e
      | .ok (st, t) => .ok (⟨[], 0, List.replicate n false, false, st⟩, t)
  finitude := maxFinitude Ss

end Fs2
