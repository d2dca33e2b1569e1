import Verif.Pipeline.Basic

/-!
# The leaf sources and the operators with one upstream and little state
-/

namespace Fs2

/-! ## Leaf sources -/

/-- `list_data_source` (list_data_source.cc:13-44), behind `read_sequence`,
`list_files` and others.  The state is `pos_ - list_.begin()`.  Simplification:
`reload_position` does not check bounds, so a position outside the list is
undefined behaviour in C++; here it is an error. -/
def listSource (xs : List Data) : Source where
  σ := Nat
  init := 0
  next p := match xs[p]? with
    | none => some (.eod, p)
    | some x => some (.yield x, p + 1)
  reset _ _ := 0
  record _ p := .ok [.int p]
  reload _ _ t := match readNat t with
    | .error e => .error e
    | .ok (p, t) => if p ≤ xs.length then .ok (p, t) else .error corrupt
  finitude := .finite

/-- Wraps a value into `{key: value}` if there is a key
(count_data_source.cc:20-23, constant_data_source.cc:15-18). -/
def keyed (key : Option String) (x : Data) : Data :=
  match key with
  | none => x
  | some k => .dict [(k, x)]

/-- `count_data_source` (count_data_source.cc:13-48).  Simplification: unbounded
integers instead of `int64_t`. -/
def countSource (start step : Int) (key : Option String) : Source where
  σ := Int
  init := start
  next c := some (.yield (keyed key (.int c)), c + step)
  reset _ _ := start
  record _ c := .ok [.int c]
  reload _ _ t := readInt t
  finitude := .pseudoInfinite

/-- `constant_data_source` (constant_data_source.cc:13-38). -/
def constantSource (x : Data) (key : Option String) : Source where
  σ := Unit
  init := ()
  next _ := some (.yield (keyed key x), ())
  reset _ _ := ()
  record _ _ := .ok []
  reload _ _ t := .ok ((), t)
  finitude := .pseudoInfinite

/-! ## Operators -/

/-- `skip_data_source::next` (skip_data_source.cc:11-27).  The state is `skip_`
and the upstream. -/
def skipNext (S : Source) (n : Nat) (s : Bool × S.σ) : Option (Res × (Bool × S.σ)) :=
  if n = 0 then
    match S.next s.2 with
    | none => none
    | some (r, i) => some (r, (s.1, i))
  else if s.1 then
    match S.next s.2 with
    | none => none
    | some (r, i) => some (r, (true, i))
  else
    match readUpTo S.next n [] s.2 with
    | none => none
    | some (⟨_, _, some e⟩, i) => some (.err e, (false, i))
    | some (⟨_, _, none⟩, i) =>
      match S.next i with
      | none => none
      | some (r, i) => some (r, (true, i))

/-- `skip_data_source` (skip_data_source.cc:11-57). -/
def skip (n : Nat) (S : Source) : Source where
  σ := Bool × S.σ
  init := (false, S.init)
  next := skipNext S n
  reset b s := (false, S.reset b s.2)
  record st s := match S.record st s.2 with
    | .error e => .error e
    | .ok t => .ok (.bool s.1 :: t)
  reload st s t := match readBool t with
    | .error e => .error e
    | .ok (k, t) =>
      match S.reload st s.2 t with
      | .error e => .error e
      | .ok (i, t) => .ok ((k, i), t)
  finitude := S.finitude

/-- `take_data_source::next` (take_data_source.cc:11-22).  The state is
`num_examples_read_` and the upstream. -/
def takeNext (S : Source) (n : Nat) (s : Nat × S.σ) : Option (Res × (Nat × S.σ)) :=
  if s.1 = n then some (.eod, s)
  else
    match S.next s.2 with
    | none => none
    | some (.yield x, i) => some (.yield x, (s.1 + 1, i))
    | some (.eod, i) => some (.eod, (s.1, i))
    | some (.err e, i) => some (.err e, (s.1, i))

/-- `take_data_source` (take_data_source.cc:11-53). -/
def take (n : Nat) (S : Source) : Source where
  σ := Nat × S.σ
  init := (0, S.init)
  next := takeNext S n
  reset b s := (0, S.reset b s.2)
  record st s := match S.record st s.2 with
    | .error e => .error e
    | .ok t => .ok (.int s.1 :: t)
  reload st s t := match readNat t with
    | .error e => .error e
    | .ok (k, t) =>
      match S.reload st s.2 t with
      | .error e => .error e
      | .ok (i, t) => .ok ((k, i), t)
  finitude := .finite

/-- `filter_data_source::next` (filter_data_source.cc:15-23).  The predicate is a
user function that may throw. -/
def filterNext {σ : Type} (next : σ → Option (Res × σ)) (p : Data → Except Err Bool) (s : σ) :
    Option (Res × σ) :=
  match next s with
  | none => none
  | some (.yield x, s') =>
    match p x with
    | .error e => some (.err e, s')
    | .ok true => some (.yield x, s')
    | .ok false => filterNext next p s'
  | some (.eod, s') => some (.eod, s')
  | some (.err e, s') => some (.err e, s')
partial_fixpoint

/-- `filter_data_source` (filter_data_source.cc:15-53). -/
def filter (p : Data → Except Err Bool) (S : Source) : Source where
  σ := S.σ
  init := S.init
  next := filterNext S.next p
  reset := S.reset
  record := S.record
  reload := S.reload
  finitude := S.finitude

/-- `map_data_source::next` with `num_parallel_calls <= 1`
(map_data_source.cc:44-52).  The function is a user function that may throw;
`invoke_function` never returns an empty optional (map_data_source.cc:269-273),
so the `while` body runs at most once. -/
def mapNext (S : Source) (f : Data → Except Err Data) (s : S.σ) : Option (Res × S.σ) :=
  match S.next s with
  | none => none
  | some (.yield x, s') =>
    match f x with
    | .error e => some (.err e, s')
    | .ok y => some (.yield y, s')
  | some (.eod, s') => some (.eod, s')
  | some (.err e, s') => some (.err e, s')

/-- `map_data_source` with `num_parallel_calls <= 1`
(map_data_source.cc:41-52, 90-163).  In this mode `deterministic_` is true and the
buffer stays empty, so the tape holds an empty vector and position 0
(map_data_source.cc:107-111). -/
def map (f : Data → Except Err Data) (S : Source) : Source where
  σ := S.σ
  init := S.init
  next := mapNext S f
  reset := S.reset
  record st s := match S.record st s with
    | .error e => .error e
    | .ok t => .ok (if st then .int 0 :: .int 0 :: t else t)
  reload st s t :=
    if st then
      match readVec (readOpt readData) t with
      | .error e => .error e
      | .ok (_, t) =>
        match readInt t with
        | .error e => .error e
        | .ok (_, t) => S.reload st s t
    else S.reload st s t
  finitude := S.finitude

/-- `shard_data_source::next` (shard_data_source.cc:22-45). -/
def shardNext (S : Source) (idx n : Nat) (uneven : Bool) (s : S.σ) : Option (Res × S.σ) :=
  if n = 1 then S.next s
  else
    match readUpTo S.next idx [] s with
    | none => none
    | some (⟨_, _, some e⟩, s) => some (.err e, s)
    | some (⟨_, true, none⟩, s) => some (.eod, s)
    | some (⟨_, false, none⟩, s) =>
      match S.next s with
      | none => none
      | some (.eod, s) => some (.eod, s)
      | some (.err e, s) => some (.err e, s)
      | some (.yield x, s) =>
        match readUpTo S.next (n - idx - 1) [] s with
        | none => none
        | some (⟨_, _, some e⟩, s) => some (.err e, s)
        | some (⟨_, true, none⟩, s) => if uneven then some (.yield x, s) else some (.eod, s)
        | some (⟨_, false, none⟩, s) => some (.yield x, s)

/-- `shard_data_source` (shard_data_source.cc:10-72). -/
def shard (idx n : Nat) (uneven : Bool) (S : Source) : Source where
  σ := S.σ
  init := S.init
  next := shardNext S idx n uneven
  reset := S.reset
  record := S.record
  reload := S.reload
  finitude := S.finitude

/-- `bucket_data_source::next` (bucket_data_source.cc:18-40). -/
def bucketNext (S : Source) (size : Nat) (drop : Bool) (s : S.σ) : Option (Res × S.σ) :=
  match readUpTo S.next size [] s with
  | none => none
  | some (⟨_, _, some e⟩, s) => some (.err e, s)
  | some (⟨xs, _, none⟩, s) =>
    if xs = [] then some (.eod, s)
    else if drop ∧ xs.length < size then some (.eod, s)
    else some (.yield (.list xs), s)

/-- `bucket_data_source` (bucket_data_source.cc:13-66). -/
def bucket (size : Nat) (drop : Bool) (S : Source) : Source where
  σ := S.σ
  init := S.init
  next := bucketNext S size drop
  reset := S.reset
  record := S.record
  reload := S.reload
  finitude := S.finitude

/-- State of `repeat_data_source` (repeat_data_source.h): `has_data_`,
`repeat_nr_` and the upstream. -/
structure RepeatSt (σ : Type) where
  hasData : Bool
  nr : Nat
  inner : σ

/-- The `while (true)` loop of `repeat_data_source::next`
(repeat_data_source.cc:19-36). -/
def repeatLoop {σ : Type} (next : σ → Option (Res × σ)) (reset : Bool → σ → σ)
    (num : Option Nat) (resetRng : Bool) (s : RepeatSt σ) : Option (Res × RepeatSt σ) :=
  match next s.inner with
  | none => none
  | some (.yield x, i) => some (.yield x, ⟨true, s.nr, i⟩)
  | some (.err e, i) => some (.err e, ⟨s.hasData, s.nr, i⟩)
  | some (.eod, i) =>
    if s.hasData = false then some (.eod, ⟨s.hasData, s.nr, i⟩)
    else if num = some (s.nr + 1) then some (.eod, ⟨s.hasData, s.nr, i⟩)
    else repeatLoop next reset num resetRng ⟨s.hasData, s.nr + 1, reset resetRng i⟩
partial_fixpoint

/-- `repeat_data_source` (repeat_data_source.cc:13-69).  `has_data_` is neither
recorded nor reloaded (lines 48-62).  The test `repeat_nr_ == *num_repeats_ - 1`
(line 31) is written `num = some (nr + 1)`, the same for `num ≠ 0`, which line 16
has checked. -/
def repeatSrc (num : Option Nat) (resetRng : Bool) (S : Source) : Source where
  σ := RepeatSt S.σ
  init := ⟨false, 0, S.init⟩
  next s := if num = some 0 then some (.eod, s) else repeatLoop S.next S.reset num resetRng s
  reset b s := ⟨false, 0, S.reset b s.inner⟩
  record st s := match S.record st s.inner with
    | .error e => .error e
    | .ok t => .ok (.int s.nr :: t)
  reload st s t := match readNat t with
    | .error e => .error e
    | .ok (k, t) =>
      match S.reload st s.inner t with
      | .error e => .error e
      | .ok (i, t) => .ok (⟨s.hasData, k, i⟩, t)
  finitude := match num with
    | none => .infinite
    | some _ => S.finitude

end Fs2
