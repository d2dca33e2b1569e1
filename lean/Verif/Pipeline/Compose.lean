import Verif.Pipeline.Simple
import Verif.Pipeline.Wrapper
import Verif.Pipeline.Multi
import Verif.Pipeline.Buffered
import Verif.Pipeline.BblLaws

/-!
# Every pipeline that can be composed from the builder's operators

`Pipe` is the syntax of what `DataPipelineBuilder` builds (data_pipeline.cc:191-589)
from `read_sequence`, `count` and `constant`; `denote` is the composition of the
models of the operators.  Left out: `prefetch` (its own model), `map` with several
calls at a time and `deterministic=False`, file and archive readers.

The other definitions say under which conditions the composition resumes, stays at
its end and rewinds; they are part of the statements of C01, C03 and C04.
-/

namespace Fs2
open Source

/-- A pipeline under construction.  The pipelines given to `concat`, `zip`,
`round_robin`, `sample` and `yield_from` carry their `max_num_warnings`
(data_pipeline.cc:580-589). -/
inductive Pipe where
  | list (xs : List Data)
  | count (start step : Int) (key : Option String)
  | constant (x : Data) (key : Option String)
  | take (n : Nat) (p : Pipe)
  | skip (n : Nat) (p : Pipe)
  | filter (f : Data → Except Err Bool) (p : Pipe)
  | map (f : Data → Except Err Data) (p : Pipe)
  | mapParallel (f : Data → Data) (n : Nat) (p : Pipe)
  | shard (idx n : Nat) (uneven : Bool) (p : Pipe)
  | bucket (n : Nat) (drop : Bool) (p : Pipe)
  | bucketByLength (c : BblCfg) (p : Pipe)
  | dynamicBucket (c : DynCfg) (p : Pipe)
  | again (num : Option Nat) (resetRng : Bool) (p : Pipe)
  | shuffle (w seed : Nat) (p : Pipe)
  | pack (c : PackCfg) (p : Pipe)
  | yieldFrom (err : Data → Option Err) (max : Data → Nat) (fn : Data → Pipe) (p : Pipe)
  | concat (n : Nat) (max : Fin n → Nat) (ps : Fin n → Pipe)
  | zip (n : Nat) (max : Fin n → Nat) (ps : Fin n → Pipe) (names : List String)
      (shortest flatten : Bool)
  | roundRobin (n : Nat) (max : Fin n → Nat) (ps : Fin n → Pipe) (shortest repeats : Bool)
  | sample (n : Nat) (max : Fin n → Nat) (ps : Fin n → Pipe) (ws : List Rat) (seed : Nat)
      (repeats : Bool)

namespace Pipe
variable (R : Rng)

/-- The data source built. -/
def denote : Pipe → Source
  | list xs => listSource xs
  | count a b k => countSource a b k
  | constant x k => constantSource x k
  | take n p => Fs2.take n p.denote
  | skip n p => Fs2.skip n p.denote
  | filter f p => Fs2.filter f p.denote
  | map f p => Fs2.map f p.denote
  | mapParallel f n p => mapPar f n p.denote
  | shard i n u p => Fs2.shard i n u p.denote
  | bucket n d p => Fs2.bucket n d p.denote
  | bucketByLength c p => Fs2.bucketByLength c p.denote
  | dynamicBucket c p => Fs2.dynamicBucket c p.denote
  | again num rr p => repeatSrc num rr p.denote
  | shuffle w seed p => Fs2.shuffle R w seed p.denote
  | pack c p => Fs2.pack c p.denote
  | yieldFrom err max fn p =>
    Fs2.yieldFrom ⟨fun x => pipeline false (max x) (fn x).denote, err⟩ p.denote
  | concat _ max ps => Fs2.concat fun i => pipeline false (max i) (ps i).denote
  | zip _ max ps names sh fl => Fs2.zip (fun i => pipeline false (max i) (ps i).denote) names sh fl
  | roundRobin _ max ps sh rp =>
    Fs2.roundRobin (fun i => pipeline false (max i) (ps i).denote) sh rp
  | sample _ max ps ws seed rp =>
    Fs2.sample R (fun i => pipeline false (max i) (ps i).denote) ws seed rp

/-- What the builder checks, as far as it matters here (data_pipeline.cc:363,
376-387, 467; zip_data_source.cc:32-53). -/
def Accepted : Pipe → Prop
  | list _ | count .. | constant .. => True
  | take _ p | skip _ p | filter _ p | map _ p | shard _ _ _ p | dynamicBucket _ p
  | again _ _ p | shuffle _ _ p | pack _ p => p.Accepted
  | mapParallel _ n p => 0 < n ∧ p.Accepted
  | bucket n _ p => 0 < n ∧ p.Accepted
  | bucketByLength c p => c.Valid ∧ p.Accepted
  | yieldFrom _ _ fn p => (∀ x, (fn x).Accepted) ∧ p.Accepted
  | concat _ _ ps => ∀ i, (ps i).Accepted
  | zip _ max ps _ _ _ => (∀ i, (ps i).Accepted) ∧
      (zipFinitude fun i => pipeline false (max i) ((ps i).denote R)).isOk
  | roundRobin _ _ ps _ _ => ∀ i, (ps i).Accepted
  | sample _ _ ps _ _ _ => ∀ i, (ps i).Accepted

/-- No call ever raises an exception: the user functions do not, and no operator is
used that raises exceptions of its own. -/
def Quiet : Pipe → Prop
  | list _ | count .. | constant .. => True
  | take _ p | skip _ p | mapParallel _ _ p | shard _ _ _ p | bucket _ _ p | again _ _ p
  | shuffle _ _ p => p.Quiet
  | filter f p => (∀ x, (f x).isOk) ∧ p.Quiet
  | map f p => (∀ x, (f x).isOk) ∧ p.Quiet
  | concat _ _ ps => ∀ i, (ps i).Quiet
  | _ => False

/-- Every call returns: no operator is used that may search for ever. -/
def Prompt : Pipe → Prop
  | list _ | count .. | constant .. => True
  | take _ p | skip _ p | mapParallel _ _ p | shard _ _ _ p | bucket _ _ p
  | shuffle _ _ p | map _ p => p.Prompt
  | concat _ _ ps => ∀ i, (ps i).Prompt
  | _ => False

/-! ## C01 -/

/-- When the pipeline `t` can take over from the pipeline `s`, given that their
sources can (`fits`).  `init` is the source's initial state. -/
def _root_.Fs2.PipeFits {σ : Type} (fits : σ → σ → Prop) (init : σ) (s t : PipeSt σ) : Prop :=
  s.warnings = t.warnings ∧ (s.src = none → t.src = none) ∧
    ∀ i, s.src = some i → fits i (t.src.getD init)

/-- When a source in state `t` can take over from one in state `s`.  The conditions
beyond those of the upstream are the parts of the state that are not saved:

* `repeat`: whether an example has been seen in this or an earlier round
  (`has_data_`); it does not matter if the current round has another example.
* `dynamic_bucket`: examples waiting to be returned (`return_buffer_`) and, without a
  bucket creation function, the bucket begun.
* `pack`: a remainder is not cleared by loading.
* pipelines inside: the number of warnings so far.
* `yield_from`: the example whose pipeline is being read must be the one saved.
* `shuffle`, `sample`: a seed of 2^63 or more cannot be loaded. -/
def Fits : (p : Pipe) → (p.denote R).σ → (p.denote R).σ → Prop
  | list _, _, _ => True
  | count .., _, _ => True
  | constant .., _, _ => True
  | take _ p, s, t => p.Fits s.2 t.2
  | skip _ p, s, t => p.Fits s.2 t.2
  | filter _ p, s, t => p.Fits s t
  | map _ p, s, t => p.Fits s t
  | mapParallel _ _ p, s, t => p.Fits s.inner t.inner
  | shard _ _ _ p, s, t => p.Fits s t
  | bucket _ _ p, s, t => p.Fits s t
  | bucketByLength _ p, s, t => p.Fits s.inner t.inner
  | dynamicBucket c p, s, t => s.ret = [] ∧ t.ret = [] ∧ (c.create = none → s.buf = t.buf) ∧
      p.Fits s.inner t.inner
  | again _ _ p, s, t => (s.hasData = t.hasData ∨ ∃ x i, (p.denote R).next s.inner = some (.yield x, i)) ∧
      p.Fits s.inner t.inner
  | shuffle _ seed p, s, t => seed < 2 ^ 63 ∧ p.Fits s.inner t.inner
  | pack _ p, s, t => (s.rem = none → t.rem = none) ∧ p.Fits s.inner t.inner
  | yieldFrom err max fn p, s, t =>
    ((s.cur = none ∧ s.dp = none) ∨ ∃ x d, s.cur = some x ∧ s.dp = some ⟨x, d⟩ ∧ err x = none ∧
      PipeFits (fn x).Fits ((fn x).denote R).init d
        (pipeline false (max x) ((fn x).denote R)).init) ∧
    p.Fits s.inner t.inner
  | concat _ _ ps, s, t => ∀ i, PipeFits (ps i).Fits ((ps i).denote R).init (s i) (t i)
  | zip _ _ ps _ _ _, s, t => ∀ i, PipeFits (ps i).Fits ((ps i).denote R).init (s i) (t i)
  | roundRobin _ _ ps _ _, s, t =>
    ∀ i, PipeFits (ps i).Fits ((ps i).denote R).init (s.st i) (t.st i)
  | sample _ _ ps _ seed _, s, t => seed < 2 ^ 63 ∧
    ∀ i, PipeFits (ps i).Fits ((ps i).denote R).init (s.st i) (t.st i)

/-- A state saved at any point can be loaded into a freshly built pipeline.
Restrictions: no `repeat`; `dynamic_bucket` without a bucket creation function and
above a quiet upstream; pipelines inside with `max_num_warnings = 0` or quiet; the
function of `yield_from` does not fail and gives finite pipelines; seeds below 2^63. -/
def LoadsFresh : Pipe → Prop
  | list _ | count .. | constant .. => True
  | take _ p | skip _ p | filter _ p | map _ p | mapParallel _ _ p | shard _ _ _ p | bucket _ _ p
  | bucketByLength _ p | pack _ p => p.LoadsFresh
  | dynamicBucket c p => c.create = none ∧ (∀ x, (c.cost x).isOk) ∧ p.Quiet ∧ p.LoadsFresh
  | again .. => False
  | shuffle _ seed p => seed < 2 ^ 63 ∧ p.LoadsFresh
  | yieldFrom err max fn p => (∀ x, err x = none ∧ ((fn x).denote R).finitude = .finite ∧
      (max x = 0 ∨ (fn x).Quiet) ∧ (fn x).LoadsFresh) ∧ p.LoadsFresh
  | concat _ max ps => ∀ i, (max i = 0 ∨ (ps i).Quiet) ∧ (ps i).LoadsFresh
  | zip _ max ps _ _ _ => ∀ i, (max i = 0 ∨ (ps i).Quiet) ∧ (ps i).LoadsFresh
  | roundRobin _ max ps _ _ => ∀ i, (max i = 0 ∨ (ps i).Quiet) ∧ (ps i).LoadsFresh
  | sample _ max ps _ seed _ => seed < 2 ^ 63 ∧
      ∀ i, (max i = 0 ∨ (ps i).Quiet) ∧ (ps i).LoadsFresh

/-- `pack` is used nowhere, except in the pipelines `yield_from` reads from. -/
def NoPack : Pipe → Prop
  | list _ | count .. | constant .. => True
  | take _ p | skip _ p | filter _ p | map _ p | mapParallel _ _ p | shard _ _ _ p | bucket _ _ p
  | bucketByLength _ p | dynamicBucket _ p | again _ _ p | shuffle _ _ p | yieldFrom _ _ _ p => p.NoPack
  | pack .. => False
  | concat _ _ ps => ∀ i, (ps i).NoPack
  | zip _ _ ps _ _ _ => ∀ i, (ps i).NoPack
  | roundRobin _ _ ps _ _ => ∀ i, (ps i).NoPack
  | sample _ _ ps _ _ _ => ∀ i, (ps i).NoPack

/-! ## C03 -/

/-- End of data is final: no `round_robin`, and `zip` only of pipelines whose calls
return and raise no exception. -/
def EndsForGood : Pipe → Prop
  | list _ | count .. | constant .. => True
  | take _ p | skip _ p | filter _ p | map _ p | mapParallel _ _ p | shard _ _ _ p | bucket _ _ p
  | bucketByLength _ p | dynamicBucket _ p | again _ _ p | shuffle _ _ p | pack _ p
  | yieldFrom _ _ _ p => p.EndsForGood
  | concat _ _ ps => ∀ i, (ps i).EndsForGood
  | zip _ _ ps _ _ _ => ∀ i, (ps i).EndsForGood ∧ (ps i).Quiet ∧ (ps i).Prompt
  | roundRobin .. => False
  | sample .. => True

/-! ## C04 -/

/-- What a full reset does not undo: examples waiting in `dynamic_bucket` and the
number of warnings of pipelines inside. -/
def Clean : (p : Pipe) → (p.denote R).σ → Prop
  | list _, _ => True
  | count .., _ => True
  | constant .., _ => True
  | take _ p, s => p.Clean s.2
  | skip _ p, s => p.Clean s.2
  | filter _ p, s => p.Clean s
  | map _ p, s => p.Clean s
  | mapParallel _ _ p, s => p.Clean s.inner
  | shard _ _ _ p, s => p.Clean s
  | bucket _ _ p, s => p.Clean s
  | bucketByLength _ p, s => p.Clean s.inner
  | dynamicBucket _ p, s => s.ret = [] ∧ p.Clean s.inner
  | again _ _ p, s => p.Clean s.inner
  | shuffle _ _ p, s => p.Clean s.inner
  | pack _ p, s => p.Clean s.inner
  | yieldFrom _ _ _ p, s => p.Clean s.inner
  | concat _ _ ps, s => ∀ i, (s i).warnings = 0 ∧ ∀ j, (s i).src = some j → (ps i).Clean j
  | zip _ _ ps _ _ _, s => ∀ i, (s i).warnings = 0 ∧ ∀ j, (s i).src = some j → (ps i).Clean j
  | roundRobin _ _ ps _ _, s =>
    ∀ i, (s.st i).warnings = 0 ∧ ∀ j, (s.st i).src = some j → (ps i).Clean j
  | sample _ _ ps _ _ _, s =>
    ∀ i, (s.st i).warnings = 0 ∧ ∀ j, (s.st i).src = some j → (ps i).Clean j

/-- Pipelines for which a full reset undoes everything: `dynamic_bucket` without a
bucket creation function, pipelines inside with `max_num_warnings = 0` or quiet. -/
def Tidy : Pipe → Prop
  | list _ | count .. | constant .. => True
  | take _ p | skip _ p | filter _ p | map _ p | mapParallel _ _ p | shard _ _ _ p | bucket _ _ p
  | bucketByLength _ p | again _ _ p | shuffle _ _ p | pack _ p | yieldFrom _ _ _ p => p.Tidy
  | dynamicBucket c p => c.create = none ∧ p.Tidy
  | concat _ max ps => ∀ i, (max i = 0 ∨ (ps i).Quiet) ∧ (ps i).Tidy
  | zip _ max ps _ _ _ => ∀ i, (max i = 0 ∨ (ps i).Quiet) ∧ (ps i).Tidy
  | roundRobin _ max ps _ _ => ∀ i, (max i = 0 ∨ (ps i).Quiet) ∧ (ps i).Tidy
  | sample _ max ps _ _ _ => ∀ i, (max i = 0 ∨ (ps i).Quiet) ∧ (ps i).Tidy

end Pipe
end Fs2
