/-!
# Parameter groups of optimizers

Models `prepare_parameter_groups` and `maybe_raise_param_group_length_error` (src/fairseq2/recipe/optim.py), and
`select_parameters` (src/fairseq2/nn/utils/module.py:288-308). Whether `re.match` finds a pattern is a function `find`. What `named_parameters()`
gives is a list of names and parameters.
-/

namespace Fs2.Groups

variable {P V : Type}

/-- A `ParameterGroupConfig`: `params` as a list, and the other fields, with `none` for `default`. -/
structure Config (V : Type) where
  params : List String
  fields : List (String × Option V)

/-- A `_ParameterGroup` (optim.py:186-195); `kwargs` is without the entry for the parameters. -/
structure Group (P V : Type) where
  patterns : List String
  kwargs : List (String × V)
  params : List P

/-- The condition at optim.py:160 and module.py:305. -/
def hit (find : String → String → Bool) (patterns : List String) (name : String) : Bool :=
  patterns.any fun p => name == p || find p name

/-- optim.py:131-150 -/
def fromConfig (c : Config V) : Group P V :=
  ⟨c.params, c.fields.filterMap fun f => f.2.map fun v => (f.1, v), []⟩

/-- optim.py:154 -/
def fallback : Group P V := ⟨[".*"], [], []⟩

/-- The inner loop (optim.py:159-165). -/
def assign (find : String → String → Bool) (name : String) (param : P) : List (Group P V) → List (Group P V)
  | [] => []
  | g :: gs => if hit find g.patterns name then { g with params := g.params ++ [param] } :: gs
    else g :: assign find name param gs

/-- optim.py:167-183 -/
def emit : List (Group P V) → List (List (String × V) × List P)
  | [] => []
  | g :: gs =>
    if g.params.isEmpty then
      if g.patterns = [".*"] then emit gs
      else (g.kwargs, g.params) :: emit gs
    else (g.kwargs, g.params) :: emit gs

/-- What is passed to the optimizer. -/
inductive Out (P V : Type) where
  | params (l : List P)
  | groups (l : List (List (String × V) × List P))

/-- `prepare_parameter_groups` (optim.py:33-183). -/
def prepare (find : String → String → Bool) (configs : List (Config V)) (params : List (String × P)) : Out P V :=
  if configs.isEmpty then .params (params.map (·.2))
  else .groups (emit (params.foldl (fun gs x => assign find x.1 x.2 gs) (configs.map fromConfig ++ [fallback])))

/-- The number of groups of the optimizer. -/
def Out.num : Out P V → Nat
  | .params _ => 1
  | .groups l => l.length

/-- How the factories of schedulers (src/fairseq2/recipe/internal/lr_schedulers.py) read a field that is one number or a list: `none`
is the `ValidationError` of `maybe_raise_param_group_length_error` (optim.py:198-232). -/
def rates {R : Type} (field : R ⊕ List R) (num : Nat) : Option (List R) :=
  match field with
  | .inl x => some (List.replicate num x)
  | .inr l => if l.length = num then some l else none

/-- `select_parameters` (module.py:288-308). -/
def select (find : String → String → Bool) (names : List String) (exclude : Bool) (params : List (String × P)) : List (String × P) :=
  params.filter fun x =>
    let matched := hit find names x.1
    (matched && !exclude) || (!matched && exclude)

end Fs2.Groups
