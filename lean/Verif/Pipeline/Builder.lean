import Verif.Pipeline.Buffered

/-!
# What the builder checks

The argument checks of `data_pipeline_builder` and of the factories of
`data_pipeline` (data_pipeline.cc:191-589).
-/

namespace Fs2

/-- A call of the builder that has checks, with the arguments they look at. -/
inductive BuilderCall where
  /-- `bucket(bucket_size)` -/
  | bucket (size : Nat)
  /-- `bucket_by_length(bucket_sizes)`: pairs of size and length -/
  | bucketByLength (sizes : List (Nat × Nat))
  /-- `dynamic_bucket(threshold, min_num_examples, max_num_examples)` -/
  | dynamicBucket (threshold : Rat) (min max : Option Nat)
  /-- `map(num_parallel_calls)` -/
  | map (calls : Nat)
  /-- `shard(shard_idx, num_shards)` -/
  | shard (idx n : Nat)
  /-- `concat(pipelines)`, `round_robin(pipelines)`: which of the pipelines are broken -/
  | concat (broken : List Bool)
  /-- `sample(pipelines, weights)` -/
  | sample (broken : List Bool) (weights : Option (List Rat))
  /-- `zip(pipelines, names, flatten)` -/
  | zip (broken : List Bool) (names : List String) (flatten : Bool)
  /-- `pack(num_elements, max_seq_len)`: no checks -/
  | pack (cap maxLen : Int)
  /-- `take`, `skip`, `repeat`, `shuffle`, `prefetch`: no checks -/
  | unchecked

def badArg (msg : String) : Except Err Unit := .error ⟨false, msg⟩

/-- The weights sampling uses (data_pipeline.cc:281-287). -/
def weightsOr (n : Nat) : Option (List Rat) → List Rat
  | some ws => ws
  | none => List.replicate n (1 / n)

/-- The `for` loop over the weights (data_pipeline.cc:293-303).  Numbers are finite
here. -/
def checkWeights : List Rat → Except Err Unit
  | [] => .ok ()
  | w :: ws =>
    if w < 0 ∨ areClose w 0 = true then badArg "The `weights` must be greater than 0.0"
    else checkWeights ws

/-- The checks (data_pipeline.cc:193-203, 236-252, 265-303, 319-345, 357-361,
371-381, 408-424, 457-465, 517-528; `pack`, `prefetch`, `repeat`, `shuffle`, `skip`
and `take` have none). -/
def check : BuilderCall → Except Err Unit
  | .bucket size => if size = 0 then badArg "`bucket_size` must be greater than zero." else .ok ()
  | .bucketByLength sizes =>
    if sizes.isEmpty then badArg "`bucket_sizes` must contain at least one element." else .ok ()
  | .dynamicBucket th min max =>
    if th ≤ 0 then badArg "`threshold` must be greater than zero."
    else if max = some 0 then badArg "`max_num_examples` must be greater than zero."
    else match max, min with
      | some m, some k =>
        if m < k then
          badArg "`max_num_examples` must be greater than or equal to `min_num_examples`."
        else .ok ()
      | _, _ => .ok ()
  | .map n => if n = 0 then badArg "`num_parallel_calls` must be greater than zero." else .ok ()
  | .shard idx n =>
    if n = 0 then badArg "`num_shards` must be greater than zero."
    else if n ≤ idx then badArg "`shard_idx` must be less than `num_shards`" else .ok ()
  | .concat broken =>
    if broken.any id then badArg "At least one of the specified data pipelines is broken" else .ok ()
  | .sample broken weights =>
    if broken.any id then badArg "At least one of the specified data pipelines is broken"
    else
      let ws := weightsOr broken.length weights
      if ws.length ≠ broken.length then
        badArg "The number of `pipelines` and the number of `weights` must be equal"
      else checkWeights ws
  | .zip broken names flatten =>
    if names ≠ [] ∧ flatten = true then badArg "`names` and `flatten` are mutually exclusive"
    else if names ≠ [] ∧ broken.length ≠ names.length then
      badArg "The number of `pipelines` and the number of `names` must be equal"
    else if broken.any id then badArg "At least one of the specified data pipelines is broken"
    else .ok ()
  | .pack _ _ => .ok ()
  | .unchecked => .ok ()

end Fs2
