import Verif.Pipeline.Basic

/-!
# `data_pipeline`: the object users iterate, save and restore

A `data_pipeline` is itself used as a source by `concat`, `zip`, `round_robin`,
`sample` and `yield_from`, so it is modelled as a `Source`.
-/

namespace Fs2

/-- The fields of `data_pipeline` (data_pipeline.h:107-111): `src = none` while the
factory has not been called, `warnings` is `warning_count_`. -/
structure PipeSt (σ : Type) where
  src : Option σ
  warnings : Nat
  broken : Bool

/-- The exception of `check_if_broken` (data_pipeline.cc:183-189).  The
constructor's default is `recoverable = false` (data_pipeline.h:215). -/
def brokenErr : Err :=
  ⟨false, "The data pipeline is broken by a previous operation and cannot be used."⟩

/-- The retry loop of `data_pipeline::next` (data_pipeline.cc:54-81).  `left` is
`max_num_warnings_ - warning_count_`. -/
def pipeLoop (S : Source) : Nat → Nat → S.σ → Option (Res × PipeSt S.σ)
  | left, w, i =>
    match S.next i with
    | none => none
    | some (.yield x, i') => some (.yield x, ⟨some i', w, false⟩)
    | some (.eod, i') => some (.eod, ⟨some i', w, false⟩)
    | some (.err e, i') =>
      if e.recoverable then
        match left with
        | left + 1 => pipeLoop S left (w + 1) i'
        | 0 => some (.err e, ⟨some i', w, false⟩)
      else some (.err e, ⟨some i', w, true⟩)

/-- `data_pipeline::next` (data_pipeline.cc:45-82).  Simplification: the factory
does not throw (`ensure_initialized`, lines 166-181). -/
def pipeNext (S : Source) (max : Nat) (s : PipeSt S.σ) : Option (Res × PipeSt S.σ) :=
  if s.broken then some (.err brokenErr, s)
  else pipeLoop S (max - s.warnings) s.warnings (s.src.getD S.init)

/-- `data_pipeline::reset` (data_pipeline.cc:84-97).  Simplification: the source's
`reset` does not throw. -/
def pipeReset (S : Source) (b : Bool) (s : PipeSt S.σ) : PipeSt S.σ :=
  match s.broken, s.src with
  | false, some i => ⟨some (S.reset b i), s.warnings, false⟩
  | _, _ => s

/-- `data_pipeline::record_position` (data_pipeline.cc:99-121).  Simplification:
that a failing record also marks the pipeline as broken is left out. -/
def pipeRecord (S : Source) (strict : Bool) (s : PipeSt S.σ) : Except Err Tape :=
  if s.broken then .error brokenErr
  else match s.src with
    | none => .ok [.bool false]
    | some i => match S.record strict i with
      | .error e => .error e
      | .ok t => .ok (.bool true :: .bool strict :: t)

/-- `data_pipeline::reload_position` (data_pipeline.cc:123-145).  The `strict`
argument of the enclosing source is not passed on: the flag on the tape counts.
`warning_count_` is kept. -/
def pipeReload (S : Source) (s : PipeSt S.σ) (t : Tape) : Except Err (PipeSt S.σ × Tape) :=
  if s.broken then .error brokenErr
  else match readBool t with
    | .error e => .error e
    | .ok (false, t) => .ok (pipeReset S false s, t)
    | .ok (true, t) => match readBool t with
      | .error e => .error e
      | .ok (strict, t) => match S.reload strict (s.src.getD S.init) t with
        | .error e => .error e
        | .ok (i, t) => .ok (⟨some i, s.warnings, false⟩, t)

/-- A `data_pipeline` with `max_num_warnings = max` around the source `S`.  A
pipeline that has been handed to `concat`, `zip`, `round_robin` or `sample` or that
`yield_from` reads from is initialised, because those call `finitude_type()` on it
(concat_data_source.cc:13-27, zip_data_source.cc:32-44, ...): `lazy = false`.  A
pipeline as returned by `and_return` is not: `lazy = true`. -/
def pipeline (lazy : Bool) (max : Nat) (S : Source) : Source where
  σ := PipeSt S.σ
  init := ⟨if lazy then none else some S.init, 0, false⟩
  next := pipeNext S max
  reset := pipeReset S
  record := pipeRecord S
  reload _ := pipeReload S
  finitude := S.finitude

/-- `state_dict` (bindings/data/data_pipeline.cc:233-247): the tape's storage. -/
def stateDict (S : Source) (strict : Bool) (s : PipeSt S.σ) : Except Err Tape :=
  pipeRecord S strict s

/-- The result of `load_state_dict`. -/
inductive Loaded (σ : Type) where
  | ok (s : PipeSt σ)
  | error (e : Err) (s : PipeSt σ)

/-- `load_state_dict` (bindings/data/data_pipeline.cc:249-287) on a list of values.
An exception inside the source's `reload_position` leaves the pipeline broken
(data_pipeline.cc:135-141); values left over are an error, after the position
has been changed (bindings line 284). -/
def loadStateDict (S : Source) (s : PipeSt S.σ) (t : Tape) : Loaded S.σ :=
  if s.broken then .error brokenErr s
  else match readBool t with
    | .error e => .error e s
    | .ok (false, t) => if t = [] then .ok (pipeReset S false s) else .error corrupt (pipeReset S false s)
    | .ok (true, t) => match readBool t with
      | .error e => .error e ⟨some (s.src.getD S.init), s.warnings, false⟩
      | .ok (strict, t) => match S.reload strict (s.src.getD S.init) t with
        | .error e => .error e ⟨s.src, s.warnings, true⟩
        | .ok (i, t) =>
          if t = [] then .ok ⟨some i, s.warnings, false⟩
          else .error corrupt ⟨some i, s.warnings, false⟩

end Fs2
