import Verif.Parquet.Streaming

/-!
# Listing the fragments of a Parquet dataset

Models `list_parquet_fragments` and `_parquet_fragments_to_pipeline_builder`
(src/fairseq2/data/parquet/fragment_streaming/primitives.py:145-281).

Left out: the thread pool (files are split in groups of `20 * nb_jobs`, which
only matters for how much work is done before stopping), logging, the listing of
the files itself, and the pipeline on top of `read_sequence`.
-/

namespace Fs2.Parquet

/-- `ParquetDatasetLimitOptions`. `fractionOfFiles` is
`int(round(fraction_of_files * len(files)))`. -/
structure Limits where
  fractionOfFiles : Option Nat := none
  nbFiles : Option Nat := none
  nbFragments : Option Nat := none
  nbRows : Option Nat := none

variable {File G R : Type}

/-- The reduction of the list of files (195-210, and `truncate_files`
337-361). -/
def truncateFiles (lim : Limits) (files : List File) : List File :=
  let files := match lim.fractionOfFiles with
    | some k => files.take (max k 1)
    | none => files
  match lim.nbFiles with
  | some n => if n < files.length then files.take n else files
  | none => files

/-- `limit is not None and total >= limit`. -/
def reached (limit : Option Nat) (total : Nat) : Bool :=
  match limit with
  | some n => decide (n ≤ total)
  | none => false

/-- The loop over the row groups (239-267). `rowCount` is consulted only if
there is a limit on the rows; the code adds 0 otherwise. -/
def limitLoop (lim : Limits) (rowCount : G → Nat) :
    List G → (totalRows totalFragments : Nat) → List G
  | [], _, _ => []
  | g :: gs, rows, frags =>
    let rows := rows + (if lim.nbRows.isSome then rowCount g else 0)
    let frags := frags + 1
    if reached lim.nbFragments frags then [g]
    else if reached lim.nbRows rows then [g]
    else g :: limitLoop lim rowCount gs rows frags

/-- The loop over whole files (269-274). -/
def wholeLoop (lim : Limits) (rowCount : G → Nat) : List G → (totalRows : Nat) → List G
  | [], _ => []
  | g :: gs, rows =>
    match lim.nbRows with
    | none => g :: wholeLoop lim rowCount gs rows
    | some n =>
      let rows := rows + rowCount g
      if n ≤ rows then [g] else g :: wholeLoop lim rowCount gs rows

/-- `file_ds_fragments[:nb_fragments]` (269). -/
def firstFragments (nbFragments : Option Nat) (frags : List G) : List G :=
  match nbFragments with
  | some n => frags.take n
  | none => frags

/-- The fragments `list_parquet_fragments` selects (188-274). -/
def listFragments (lim : Limits) (split : Bool) (rows : File → List G) (whole : File → G)
    (rowCount : G → Nat) (files : List File) : List G :=
  let files := truncateFiles lim files
  if split then limitLoop lim rowCount ((files.map rows).flatten) 0 0
  else wholeLoop lim rowCount (firstFragments lim.nbFragments (files.map whole)) 0

/-- `np.concatenate([rsg.permutation(frags) for _ in range(n)])`. -/
def permutations (rd : Rand R) (frags : List G) : Nat → R → List G
  | 0, _ => []
  | n + 1, r => (rd.shuffle r frags).1 ++ permutations rd frags n (rd.shuffle r frags).2

/-- What `_parquet_fragments_to_pipeline_builder` (145-175) hands to
`read_sequence`, and whether it is repeated for ever. `drawn` is the seed drawn
when none is given. -/
def scheduled (rd : Rand R) (nbEpochs : Option Nat) (shuffle : Bool) (seed : Option Nat)
    (drawn : Nat) (frags : List G) : List G × Bool :=
  let n := nbEpochs.getD 100
  let seq :=
    if shuffle then permutations rd frags n (rd.ofSeed (seed.getD drawn))
    else (List.replicate n frags).flatten
  (seq, nbEpochs.isNone)

end Fs2.Parquet
