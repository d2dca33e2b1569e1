import Verif.Checkpoint.Retention

/-!
# Validation and evaluation

Models `StandardValidator` (src/fairseq2/validator.py:68-419) and `Evaluator` (src/fairseq2/evaluator.py:72-311), on all
ranks of a gang with data parallelism only. `Generator` (src/fairseq2/generator.py) is an `Evaluator` with a single unit
here; its metric bag is made by the constructor.

What they drive is abstract: data readers, units that put something into their metric bag, and the synchronization that
computes values from the bags of all ranks (`Verif.Metrics.Aggregate`). Timers, progress bars, profilers, autocast, saves
and exports that complete meanwhile, and the random number generators (`Verif.Utils.Rng`) are left out.
-/

namespace Fs2.Eval

/-- A metric value: a number (`none` is `nan`; infinite ones are left out), or something else. -/
inductive Val where
  | num (x : Option Rat)
  | other
deriving DecidableEq

abbrev Dict := List (String × Val)

/-- Data readers: states, `next` with `none` for `StopIteration`, and `reset`. A reader returns the batches of one step. -/
structure Reader (D B : Type) where
  next : D → Option (List B × D)
  reset : D → D

/-- An `EvalUnit` (evaluator.py:43-69). `M` is what a metric bag holds, `values` is what `sync_and_compute_metrics` computes from
the bags of all ranks, and `post` is what `process_metric_values` and the following lines make of the values (device
statistics, times, and `extend_batch_metric_values`). -/
structure EUnit (B M : Type) where
  name : Option String
  prepare : M
  process : M → B → M
  finalize : M → M
  values : List M → Dict
  post : Dict → Dict

inductive Exc where
  /-- `InvalidOperationError` -/
  | alreadyRun
  /-- `TaskStopException` -/
  | stopped
  /-- `InternalError` -/
  | internal
deriving DecidableEq

variable {D B M : Type}

/-- `_run_step` (validator.py:231-249, evaluator.py:199-217): the list is reversed, and batches are taken from its end. -/
def runStep (u : EUnit B M) (batches : List B) (m : M) : M :=
  batches.reverse.foldr (fun b m => u.process m b) m

/-- The loop of `_run_unit` on one rank (validator.py:184-208, evaluator.py:157-179). `stopAt` is the number of steps after which
a stop request is seen, if there is one; the validator sees none. `none` if it does not end. -/
def drain (rd : Reader D B) (u : EUnit B M) (stopAt : Option Nat) (d : D) (m : M) : Option (Except Exc (D × M)) :=
  if stopAt = some 0 then some (.error .stopped)
  else match rd.next d with
    | none => some (.ok (rd.reset d, m))
    | some (batches, d) => drain rd u (stopAt.map (· - 1)) d (runStep u batches m)
partial_fixpoint

/-- Either all are fine or there is an exception. -/
def gather {α : Type} : List (Except Exc α) → Except Exc (List α)
  | [] => .ok []
  | .error e :: _ => .error e
  | .ok x :: l => match gather l with
    | .error e => .error e
    | .ok xs => .ok (x :: xs)

/-- The dictionary without the entries whose names start with `total_` (validator.py:288). -/
def noTotals (values : Dict) : Dict := values.filter fun e => !e.1.startsWith "total_"

/-- `_run_unit` with `n + 1` ranks (validator.py:173-215 and 269-326, evaluator.py:148-183 and 237-287) up to `metric_recorder`: the states of the readers
and what is recorded. -/
def runUnit (rd : Reader D B) (n : Nat) (u : EUnit B M) (stopAt : Option Nat) (ds : Nat → D) :
    Option (Except Exc ((Nat → D) × Dict)) :=
  ((List.range (n + 1)).mapM fun k => drain rd u stopAt (ds k) u.prepare).map fun rs =>
    match gather rs with
    | .error e => .error e
    | .ok xs =>
      let values := u.values (xs.map fun x => u.finalize x.2)
      .ok (fun k => (xs[k]?.map (·.1)).getD (ds k), u.post (noTotals values))

/-- A call of `record_metric_values`. -/
structure Record where
  category : String
  values : Dict
  stepNr : Option Nat

/-- validator.py:311-314 -/
def validCategory (name : Option String) : String :=
  match name with
  | none => "valid"
  | some s => "valid" ++ "/" ++ s

/-- evaluator.py:278-281 -/
def evalCategory (name : Option String) : String :=
  match name with
  | none => "eval"
  | some s => if s = "" then "eval" else "eval" ++ "/" ++ s

/-- The loop over the units and their readers (validator.py:158-165, evaluator.py:142-146): what is recorded, and unless there
is an exception the readers afterwards and the scores of the units that have one. -/
def runUnits (rd : Reader D B) (n : Nat) (category : Option String → String) (stepNr : Option Nat)
    (score : Dict → Except Exc (Option (Option Rat))) :
    List (EUnit B M × Option Nat × (Nat → D)) → Option (List Record × Except Exc (List (Nat → D) × List (Option Rat)))
  | [] => some ([], .ok ([], []))
  | (u, stopAt, ds) :: rest =>
    match runUnit rd n u stopAt ds with
    | none => none
    | some (.error e) => some ([], .error e)
    | some (.ok (ds, values)) =>
      let record : Record := ⟨category u.name, values, stepNr⟩
      match score values with
      | .error e => some ([record], .error e)
      | .ok s =>
        match runUnits rd n category stepNr score rest with
        | none => none
        | some (records, .error e) => some (record :: records, .error e)
        | some (records, .ok (readers, scores)) => some (record :: records, .ok (ds :: readers, s.toList ++ scores))

/-! ## The validator -/

/-- A `MetricDescriptor` as far as needed; `none` stands for `NOOP_METRIC_DESCRIPTOR`. -/
structure Descriptor where
  name : String
  higherBetter : Bool

/-- The fields of a validator: states of the readers, and on rank 0 the best score (`none` is minus infinity) and its step. -/
structure Validator (D : Type) where
  readers : List (Nat → D)
  hasRun : Bool
  bestScore : Option Rat
  bestStep : Int

/-- After `__init__` (validator.py:110-118). -/
def Validator.fresh (readers : List (Nat → D)) : Validator D := ⟨readers, false, none, -1⟩

/-- `_maybe_restore_best_score_and_step` (validator.py:136-153) on rank 0; `scores` is what `load_scores` returns. -/
def restoreBest (desc : Option Descriptor) (scores : List (Rat × Nat)) (v : Validator D) : Validator D :=
  if desc.isNone then v
  else if v.bestStep ≥ 0 then v
  else match scores with
    | (s, n) :: _ => { v with bestScore := some s, bestStep := n }
    | [] => { v with bestStep := 0 }

/-- `_maybe_get_unit_score` (validator.py:339-360) on rank 0. -/
def unitScore (desc : Option Descriptor) (values : Dict) : Except Exc (Option (Option Rat)) :=
  match desc with
  | none => .ok none
  | some d =>
    match values.lookup d.name with
    | none => .ok none
    | some .other => .error .internal
    | some (.num x) => .ok (some (if d.higherBetter then x else x.map (- ·)))

/-- `sum` of floats, where `none` is `nan`. -/
def addScore (x y : Option Rat) : Option Rat := x.bind fun a => y.map fun b => a + b

/-- `score > best_score`. -/
def better (score : Option Rat) (best : Option Rat) : Bool :=
  match score, best with
  | none, _ => false
  | some _, none => true
  | some x, some y => decide (x > y)

/-- `_compute_aggregated_score` and `_update_best_score` on rank 0 (validator.py:362-387). -/
def scoreRun (stepNr : Nat) (scores : List (Option Rat)) (v : Validator D) : Except Exc (Option Rat × Validator D) :=
  match scores with
  | [] => .error .internal
  | s :: ss =>
    let score := (s :: ss).foldl addScore (some 0)
    .ok (score, if better score v.bestScore then { v with bestScore := score, bestStep := stepNr } else v)

/-- What `run` returns on a rank: nothing, or a score. -/
structure Returned where
  rank0 : Option (Option Rat)
  others : Option (Option Rat)

/-- `run` (validator.py:122-134, 155-171): what is recorded, and what is returned or raised. -/
def run (rd : Reader D B) (n : Nat) (desc : Option Descriptor) (units : List (EUnit B M)) (saved : List (Rat × Nat))
    (stepNr : Nat) (v : Validator D) : Option (List Record × Except Exc (Returned × Validator D)) :=
  if v.hasRun then some ([], .error .alreadyRun)
  else
    let v := restoreBest desc saved { v with hasRun := true }
    match runUnits rd n validCategory (some stepNr) (unitScore desc)
        ((units.zip v.readers).map fun x => (x.1, none, x.2)) with
    | none => none
    | some (records, .error e) => some (records, .error e)
    | some (records, .ok (readers, scores)) =>
      let v := { v with readers := readers }
      if desc.isNone then some (records, .ok (⟨none, none⟩, v))
      else match scoreRun stepNr scores v with
        | .error e => some (records, .error e)
        | .ok (score, v) => some (records, .ok (⟨some score, some (some 0)⟩, v))

/-- `reset` (validator.py:405-419). -/
def Validator.reset (rd : Reader D B) (v : Validator D) : Validator D :=
  { v with readers := v.readers.map fun ds k => rd.reset (ds k), hasRun := false }

/-! ## The evaluator -/

/-- `_do_run` of an `Evaluator` that has not been run (evaluator.py:124-146), with the stop request that is seen in each unit. -/
def evaluate (rd : Reader D B) (n : Nat) (units : List (EUnit B M × Option Nat × (Nat → D))) :
    Option (List Record × Except Exc (List (Nat → D) × List (Option Rat))) :=
  runUnits rd n evalCategory none (fun _ => .ok none) units

end Fs2.Eval
