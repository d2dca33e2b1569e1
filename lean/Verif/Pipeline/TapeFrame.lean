import Verif.Pipeline.ComposeLaws
import Verif.Pipeline.Tape

/-!
# Loading reads a prefix of the tape and leaves the rest alone

Helper lemmas for C02: what a load does depends only on the values it consumes.
-/

namespace Fs2
open Source

/-- What `f` returns does not depend on values behind those it reads. -/
def Framed {α : Type} (f : Tape → Except Err (α × Tape)) : Prop :=
  ∀ t a r e, f t = .ok (a, r) → f (t ++ e) = .ok (a, r ++ e)

theorem framed_readBool : Framed readBool := by
  intro t a r e h
  cases t with
  | nil => cases h
  | cons d t => cases d <;> cases h; rfl

theorem framed_readInt : Framed readInt := by
  intro t a r e h
  cases t with
  | nil => cases h
  | cons d t => cases d <;> cases h; rfl

theorem framed_readNat : Framed readNat := by
  intro t a r e h
  cases t with
  | nil => cases h
  | cons d t =>
    cases d with
    | int i => cases i <;> cases h; rfl
    | _ => cases h

theorem framed_readNum : Framed readNum := by
  intro t a r e h
  cases t with
  | nil => cases h
  | cons d t => cases d <;> cases h; rfl

theorem framed_readList : Framed readList := by
  intro t a r e h
  cases t with
  | nil => cases h
  | cons d t => cases d <;> cases h; rfl

theorem framed_readTensor : Framed readTensor := by
  intro t a r e h
  cases t with
  | nil => cases h
  | cons d t => cases d <;> cases h; rfl

theorem framed_readData : Framed readData := by
  intro t a r e h
  cases t with
  | nil => cases h
  | cons d t => cases h; rfl

theorem framed_readMany {α : Type} {rd : Tape → Except Err (α × Tape)} (h : Framed rd) :
    ∀ n, Framed (readMany rd n)
  | 0 => by intro t a r e h; cases h; rfl
  | n + 1 => by
    intro t a r e hx
    simp only [readMany] at hx ⊢
    split at hx
    · cases hx
    rename_i h1
    rw [h _ _ _ e h1]
    dsimp only
    split at hx
    · cases hx
    rename_i h2
    rw [framed_readMany h n _ _ _ e h2]
    cases hx; rfl

theorem framed_readVec {α : Type} {rd : Tape → Except Err (α × Tape)} (h : Framed rd) :
    Framed (readVec rd) := by
  intro t a r e hx
  simp only [readVec] at hx ⊢
  split at hx
  · cases hx
  rename_i h1
  rw [framed_readNat _ _ _ e h1]
  exact framed_readMany h _ _ _ _ e hx

theorem framed_readOpt {α : Type} {rd : Tape → Except Err (α × Tape)} (h : Framed rd) :
    Framed (readOpt rd) := by
  intro t a r e hx
  simp only [readOpt] at hx ⊢
  split at hx
  · cases hx
  · rename_i h1
    rw [framed_readBool _ _ _ e h1]
    cases hx; rfl
  · rename_i h1
    rw [framed_readBool _ _ _ e h1]
    dsimp only
    split at hx
    · cases hx
    rename_i h2
    rw [h _ _ _ e h2]
    cases hx; rfl

theorem framed_readGen {R : Rng} : Framed (readGen R) := by
  intro t a r e hx
  simp only [readGen] at hx ⊢
  split at hx
  · cases hx
  rename_i h1
  rw [framed_readTensor _ _ _ e h1]
  dsimp only
  split at hx
  · cases hx
  · cases hx; rfl

/-- Loading the state of a source depends only on the values it reads. -/
def Frame (S : Source) : Prop := ∀ strict s, Framed (S.reload strict s)

theorem pipeline_frame {lazy : Bool} {max : Nat} {S : Source} (h : Frame S) :
    Frame (pipeline lazy max S) := by
  intro strict s t a r e hx
  simp only [pipeline, pipeReload] at hx ⊢
  split at hx
  · cases hx
  rename_i hb
  rw [if_neg hb]
  split at hx
  · cases hx
  · rename_i h1
    rw [framed_readBool _ _ _ e h1]
    cases hx; rfl
  · rename_i h1
    rw [framed_readBool _ _ _ e h1]
    dsimp only
    split at hx
    · cases hx
    rename_i h2
    rw [framed_readBool _ _ _ e h2]
    dsimp only
    split at hx
    · cases hx
    rename_i h3
    rw [h _ _ _ _ _ e h3]
    cases hx; rfl

theorem reloadAll_frame {n : Nat} {Ss : Fin n → Source} (h : ∀ i, Frame (Ss i)) (strict : Bool) :
    ∀ (is : List (Fin n)) (st : States Ss), Framed (reloadAll Ss strict is st)
  | [], _ => by intro t a r e h; cases h; rfl
  | i :: is, st => by
    intro t a r e hx
    simp only [reloadAll] at hx ⊢
    split at hx
    · cases hx
    rename_i h1
    rw [h i _ _ _ _ _ e h1]
    exact reloadAll_frame h strict is _ _ _ _ e hx

theorem listSource_frame {xs : List Data} : Frame (listSource xs) := by
  intro strict s t a r e hx
  simp only [listSource] at hx ⊢
  split at hx
  · cases hx
  rename_i h1
  rw [framed_readNat _ _ _ e h1]
  dsimp only
  split at hx
  · rename_i h2
    rw [if_pos h2]; cases hx; rfl
  · cases hx

variable {S : Source}

theorem take_frame {n : Nat} (h : Frame S) : Frame (take n S) := by
  intro strict s t a r e hx
  simp only [take] at hx ⊢
  split at hx
  · cases hx
  rename_i h1
  rw [framed_readNat _ _ _ e h1]
  dsimp only
  split at hx
  · cases hx
  rename_i h2
  rw [h _ _ _ _ _ e h2]
  cases hx; rfl

theorem skip_frame {n : Nat} (h : Frame S) : Frame (skip n S) := by
  intro strict s t a r e hx
  simp only [skip] at hx ⊢
  split at hx
  · cases hx
  rename_i h1
  rw [framed_readBool _ _ _ e h1]
  dsimp only
  split at hx
  · cases hx
  rename_i h2
  rw [h _ _ _ _ _ e h2]
  cases hx; rfl

theorem repeat_frame {num : Option Nat} {rr : Bool} (h : Frame S) : Frame (repeatSrc num rr S) := by
  intro strict s t a r e hx
  simp only [repeatSrc] at hx ⊢
  split at hx
  · cases hx
  rename_i h1
  rw [framed_readNat _ _ _ e h1]
  dsimp only
  split at hx
  · cases hx
  rename_i h2
  rw [h _ _ _ _ _ e h2]
  cases hx; rfl

theorem map_frame {f : Data → Except Err Data} (h : Frame S) : Frame (map f S) := by
  intro strict s t a r e hx
  simp only [map] at hx ⊢
  split at hx
  · rename_i hs
    rw [if_pos hs]
    split at hx
    · cases hx
    rename_i h1
    rw [framed_readVec (framed_readOpt framed_readData) _ _ _ e h1]
    dsimp only
    split at hx
    · cases hx
    rename_i h2
    rw [framed_readInt _ _ _ e h2]
    exact h _ _ _ _ _ e hx
  · rename_i hs
    rw [if_neg hs]
    exact h _ _ _ _ _ e hx

theorem mapPar_frame {f : Data → Data} {n : Nat} (h : Frame S) : Frame (mapPar f n S) := by
  intro strict s t a r e hx
  simp only [mapPar] at hx ⊢
  split at hx
  · rename_i hs
    rw [if_pos hs]
    split at hx
    · cases hx
    rename_i h1
    rw [framed_readVec (framed_readOpt framed_readData) _ _ _ e h1]
    dsimp only
    split at hx
    · cases hx
    rename_i h2
    rw [framed_readNat _ _ _ e h2]
    dsimp only
    split at hx
    · cases hx
    rename_i h3
    rw [h _ _ _ _ _ e h3]
    cases hx; rfl
  · rename_i hs
    rw [if_neg hs]
    split at hx
    · cases hx
    rename_i h3
    rw [h _ _ _ _ _ e h3]
    cases hx; rfl

theorem shuffle_frame {R : Rng} {w seed : Nat} (h : Frame S) : Frame (shuffle R w seed S) := by
  intro strict s t a r e hx
  simp only [shuffle] at hx ⊢
  split at hx
  · rename_i hs
    rw [if_pos hs]
    split at hx
    · cases hx
    rename_i h1
    rw [framed_readList _ _ _ e h1]
    dsimp only
    split at hx
    · cases hx
    rename_i h1
    rw [framed_readNat _ _ _ e h1]
    dsimp only
    split at hx
    · cases hx
    rename_i h1
    rw [framed_readNat _ _ _ e h1]
    dsimp only
    split at hx
    · cases hx
    rename_i h1
    rw [framed_readBool _ _ _ e h1]
    dsimp only
    split at hx
    · cases hx
    rename_i h1
    rw [framed_readNat _ _ _ e h1]
    dsimp only
    split at hx
    · cases hx
    rename_i h1
    rw [framed_readGen _ _ _ e h1]
    dsimp only
    split at hx
    · cases hx
    rename_i h3
    rw [h _ _ _ _ _ e h3]
    cases hx; rfl
  · rename_i hs
    rw [if_neg hs]
    split at hx
    · cases hx
    rename_i h1
    rw [framed_readNat _ _ _ e h1]
    dsimp only
    split at hx
    · cases hx
    rename_i h1
    rw [framed_readGen _ _ _ e h1]
    dsimp only
    split at hx
    · cases hx
    rename_i h3
    rw [h _ _ _ _ _ e h3]
    cases hx; rfl

theorem bbl_frame {c : BblCfg} (h : Frame S) : Frame (bucketByLength c S) := by
  intro strict s t a r e hx
  simp only [bucketByLength] at hx ⊢
  split at hx
  · cases hx
  rename_i h1
  rw [framed_readVec framed_readList _ _ _ e h1]
  dsimp only
  split at hx
  · cases hx
  rename_i h2
  rw [h _ _ _ _ _ e h2]
  cases hx; rfl

theorem dyn_frame {c : DynCfg} (h : Frame S) : Frame (dynamicBucket c S) := by
  intro strict s t a r e hx
  simp only [dynamicBucket] at hx ⊢
  split at hx
  · rename_i hs
    rw [if_pos hs]
    split at hx
    · cases hx
    rename_i h1
    rw [framed_readList _ _ _ e h1]
    dsimp only
    split at hx
    · cases hx
    rename_i h2
    rw [h _ _ _ _ _ e h2]
    cases hx; rfl
  · rename_i hs
    rw [if_neg hs]
    split at hx
    · cases hx
    rename_i h2
    rw [h _ _ _ _ _ e h2]
    cases hx; rfl

theorem pack_frame {c : PackCfg} (h : Frame S) : Frame (pack c S) := by
  intro strict s t a r e hx
  simp only [pack] at hx ⊢
  split at hx
  · cases hx
  · rename_i h1
    rw [framed_readBool _ _ _ e h1]
    dsimp only
    split at hx
    · cases hx
    rename_i h1
    rw [framed_readTensor _ _ _ e h1]
    dsimp only
    split at hx
    · cases hx
    rename_i h2
    rw [h _ _ _ _ _ e h2]
    cases hx; rfl
  · rename_i h1
    rw [framed_readBool _ _ _ e h1]
    dsimp only
    split at hx
    · cases hx
    rename_i h2
    rw [h _ _ _ _ _ e h2]
    cases hx; rfl

theorem yield_frame {F : YieldFn} (hF : ∀ x, Frame (F.pipe x)) (h : Frame S) :
    Frame (yieldFrom F S) := by
  intro strict s t a r e hx
  simp only [yieldFrom] at hx ⊢
  split at hx
  · rename_i hs
    rw [if_pos hs]
    split at hx
    · cases hx
    · rename_i h1
      rw [framed_readOpt framed_readData _ _ _ e h1]
      dsimp only
      split at hx
      · cases hx
      rename_i h2
      rw [h _ _ _ _ _ e h2]
      cases hx; rfl
    · rename_i h1
      rw [framed_readOpt framed_readData _ _ _ e h1]
      dsimp only
      split at hx
      · cases hx
      · split at hx
        · cases hx
        rename_i h1
        rw [hF _ _ _ _ _ _ e h1]
        dsimp only
        split at hx
        · cases hx
        rename_i h2
        rw [h _ _ _ _ _ e h2]
        cases hx; rfl
  · rename_i hs
    rw [if_neg hs]
    split at hx
    · cases hx
    rename_i h2
    rw [h _ _ _ _ _ e h2]
    cases hx; rfl

variable {n : Nat} {Ss : Fin n → Source}

theorem roundRobin_frame {sh rp : Bool} (h : ∀ i, Frame (Ss i)) : Frame (roundRobin Ss sh rp) := by
  intro strict s t a r e hx
  simp only [roundRobin] at hx ⊢
  split at hx
  · rename_i hs
    rw [if_pos hs]
    split at hx
    · cases hx
    rename_i h1
    rw [framed_readVec (framed_readOpt framed_readData) _ _ _ e h1]
    dsimp only
    split at hx
    · cases hx
    rename_i h1
    rw [framed_readNat _ _ _ e h1]
    dsimp only
    split at hx
    · cases hx
    rename_i h1
    rw [framed_readVec framed_readBool _ _ _ e h1]
    dsimp only
    split at hx
    · cases hx
    rename_i h1
    rw [reloadAll_frame h _ _ _ _ _ _ e h1]
    cases hx; rfl
  · rename_i hs
    rw [if_neg hs]
    split at hx
    · cases hx
    rename_i h1
    rw [reloadAll_frame h _ _ _ _ _ _ e h1]
    cases hx; rfl

theorem sample_frame {R : Rng} {ws : List Rat} {seed : Nat} {rp : Bool} (h : ∀ i, Frame (Ss i)) :
    Frame (sample R Ss ws seed rp) := by
  intro strict s t a r e hx
  simp only [sample] at hx ⊢
  split at hx
  · rename_i hs
    rw [if_pos hs]
    split at hx
    · cases hx
    rename_i h1
    rw [framed_readVec (framed_readOpt framed_readData) _ _ _ e h1]
    dsimp only
    split at hx
    · cases hx
    rename_i h1
    rw [framed_readVec framed_readBool _ _ _ e h1]
    dsimp only
    split at hx
    · cases hx
    rename_i h1
    rw [framed_readNat _ _ _ e h1]
    dsimp only
    split at hx
    · cases hx
    rename_i h1
    rw [framed_readGen _ _ _ e h1]
    dsimp only
    split at hx
    · cases hx
    rename_i h1
    rw [framed_readVec framed_readNum _ _ _ e h1]
    dsimp only
    split at hx
    · cases hx
    rename_i h1
    rw [reloadAll_frame h _ _ _ _ _ _ e h1]
    cases hx; rfl
  · rename_i hs
    rw [if_neg hs]
    split at hx
    · cases hx
    rename_i h1
    rw [framed_readNat _ _ _ e h1]
    dsimp only
    split at hx
    · cases hx
    rename_i h1
    rw [framed_readGen _ _ _ e h1]
    dsimp only
    split at hx
    · cases hx
    rename_i h1
    rw [framed_readVec framed_readNum _ _ _ e h1]
    dsimp only
    split at hx
    · cases hx
    rename_i h1
    rw [reloadAll_frame h _ _ _ _ _ _ e h1]
    cases hx; rfl

theorem Pipe.frame (R : Rng) : (p : Pipe) → Frame (p.denote R)
  | list _ => listSource_frame
  | count .. => fun _ _ => framed_readInt
  | constant .. => by intro _ _ t a r e h; cases h; rfl
  | take _ p => take_frame (p.frame R)
  | skip _ p => skip_frame (p.frame R)
  | filter _ p => p.frame R
  | map _ p => map_frame (p.frame R)
  | mapParallel _ _ p => mapPar_frame (p.frame R)
  | shard _ _ _ p => p.frame R
  | bucket _ _ p => p.frame R
  | bucketByLength _ p => bbl_frame (p.frame R)
  | dynamicBucket _ p => dyn_frame (p.frame R)
  | again _ _ p => repeat_frame (p.frame R)
  | shuffle _ _ p => shuffle_frame (p.frame R)
  | pack _ p => pack_frame (p.frame R)
  | yieldFrom _ _ fn p => yield_frame (fun x => pipeline_frame ((fn x).frame R)) (p.frame R)
  | concat _ _ ps => fun strict s =>
    reloadAll_frame (fun i => pipeline_frame ((ps i).frame R)) strict _ s
  | zip _ _ ps _ _ _ => fun strict s =>
    reloadAll_frame (fun i => pipeline_frame ((ps i).frame R)) strict _ s
  | roundRobin _ _ ps _ _ => roundRobin_frame fun i => pipeline_frame ((ps i).frame R)
  | sample _ _ ps _ _ _ => sample_frame fun i => pipeline_frame ((ps i).frame R)

end Fs2
