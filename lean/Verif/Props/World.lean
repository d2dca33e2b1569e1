import Verif.Runtime.World

/-!
# Properties of the ranks, clusters and devices that processes find

C124. A process finds in its environment the rank, the cluster and the device that it was started for, or fails with the name of
the variable that is wrong.
-/

namespace Fs2.Props

open Fs2.World

/-- The variable has the number as its value. -/
def SetTo (env : Environment) (name : String) (v : Int) : Prop := ∃ s, env.get name = some s ∧ env.parseInt s = some v

/-- A pair of variables gives a rank in a world: both are set to numbers, or none is set and the process is alone. -/
def SetsRank (env : Environment) (rankName sizeName : String) (r n : Nat) : Prop :=
  (SetTo env rankName r ∧ SetTo env sizeName n ∧ r < n) ∨
  (env.get rankName = none ∧ env.get sizeName = none ∧ r = 0 ∧ n = 1)

private theorem getRank_some {env : Environment} {name : String} {r : Nat} :
    getRank env name = .ok (some r) ↔ SetTo env name r := by
  unfold getRank SetTo
  constructor
  · intro h
    split at h
    · cases h
    · rename_i s hs
      split at h
      · cases h
      · rename_i v hv
        split at h
        · cases h
        · injection h with h
          injection h with h
          refine ⟨s, hs, ?_⟩
          rw [hv]
          congr 1
          omega
  · rintro ⟨s, hs, hv⟩
    rw [hs]
    simp only [hv]
    rw [if_neg (by omega)]
    simp

private theorem getRank_none {env : Environment} {name : String} :
    getRank env name = .ok none ↔ env.get name = none := by
  unfold getRank
  constructor
  · intro h
    split at h
    · assumption
    · split at h
      · cases h
      · split at h
        · cases h
        · injection h with h; cases h
  · intro h
    rw [h]

private theorem getSize_some {env : Environment} {name : String} {n : Nat} :
    getWorldSize env name = .ok (some n) ↔ SetTo env name n ∧ 0 < n := by
  unfold getWorldSize SetTo
  constructor
  · intro h
    split at h
    · cases h
    · rename_i s hs
      split at h
      · cases h
      · rename_i v hv
        split at h
        · cases h
        · injection h with h
          injection h with h
          refine ⟨⟨s, hs, ?_⟩, by omega⟩
          rw [hv]
          congr 1
          omega
  · rintro ⟨⟨s, hs, hv⟩, hn⟩
    rw [hs]
    simp only [hv]
    rw [if_neg (by omega)]
    simp

private theorem getSize_none {env : Environment} {name : String} :
    getWorldSize env name = .ok none ↔ env.get name = none := by
  unfold getWorldSize
  constructor
  · intro h
    split at h
    · assumption
    · split at h
      · cases h
      · split at h
        · cases h
        · injection h with h; cases h
  · intro h
    rw [h]

private theorem readPair_iff {env : Environment} {a b : String} {r n : Nat} :
    readPair env a b = .ok (r, n) ↔ SetsRank env a b r n := by
  unfold readPair SetsRank
  constructor
  · intro h
    split at h
    · cases h
    · rename_i rank hr
      split at h
      · cases h
      · rename_i size hs
        split at h
        · split at h
          · cases h
          · split at h
            · cases h
            · injection h with h
              injection h with h1 h2
              subst h1; subst h2
              exact .inl ⟨getRank_some.1 hr, (getSize_some.1 hs).1, by omega⟩
        · split at h
          · cases h
          · injection h with h
            injection h with h1 h2
            exact .inr ⟨getRank_none.1 hr, getSize_none.1 hs, h1.symm, h2.symm⟩
  · rintro (⟨h1, h2, h3⟩ | ⟨h1, h2, rfl, rfl⟩)
    · rw [getRank_some.2 h1, getSize_some.2 ⟨h2, by omega⟩]
      simp only
      rw [if_neg (by omega)]
    · rw [getRank_none.2 h1, getSize_none.2 h2]

/-- **C124.** A process has a rank and a local rank exactly if the variables give them: each pair is set to numbers, the rank from
0 to below the size, or is not set at all. It has the numbers that they give. -/
theorem C124_world (env : Environment) (w : WorldInfo) : WorldInfo.fromEnv env = .ok w ↔
    SetsRank env "RANK" "WORLD_SIZE" w.rank w.size ∧
    SetsRank env "LOCAL_RANK" "LOCAL_WORLD_SIZE" w.localRank w.localSize := by
  unfold WorldInfo.fromEnv
  constructor
  · intro h
    split at h
    · cases h
    · rename_i r n h1
      split at h
      · cases h
      · rename_i r' n' h2
        injection h with h
        subst h
        exact ⟨readPair_iff.1 h1, readPair_iff.1 h2⟩
  · rintro ⟨h1, h2⟩
    rw [readPair_iff.2 h1]
    simp only
    rw [readPair_iff.2 h2]

/-- **C124.** A rank is below the size, in the world and on the host. -/
theorem C124_below (env : Environment) (w : WorldInfo) (h : WorldInfo.fromEnv env = .ok w) :
    w.rank < w.size ∧ w.localRank < w.localSize := by
  obtain ⟨h1, h2⟩ := (C124_world env w).1 h
  constructor
  · rcases h1 with ⟨_, _, h⟩ | ⟨_, _, h, h'⟩ <;> omega
  · rcases h2 with ⟨_, _, h⟩ | ⟨_, _, h, h'⟩ <;> omega

/-- An environment of some variables with decimal numbers as values. -/
def envOf (vars : List (String × String)) (ints : List (String × Int)) : Environment :=
  ⟨fun k => (vars.find? fun kv => kv.1 == k).map Prod.snd, fun s => (ints.find? fun kv => kv.1 == s).map Prod.snd⟩

/-- The hypotheses are met by rank 5 of 8 on a host with four of them. -/
example : (WorldInfo.fromEnv (envOf [("RANK", "5"), ("WORLD_SIZE", "8"), ("LOCAL_RANK", "1"), ("LOCAL_WORLD_SIZE", "4")]
    [("5", 5), ("8", 8), ("1", 1), ("4", 4)])).toOption = some ⟨5, 8, 1, 4⟩ := by decide +kernel

/-- **C124, violated.** Nothing relates the host to the world: every process that has only its local variables set is accepted as
the only one of its world, with any local rank on a host of any size. -/
theorem C124_local_negation (env : Environment) (r n : Nat) (h1 : env.get "RANK" = none) (h2 : env.get "WORLD_SIZE" = none)
    (h3 : SetTo env "LOCAL_RANK" r) (h4 : SetTo env "LOCAL_WORLD_SIZE" n) (h5 : r < n) :
    WorldInfo.fromEnv env = .ok ⟨0, 1, r, n⟩ :=
  (C124_world env _).2 ⟨.inr ⟨h1, h2, rfl, rfl⟩, .inl ⟨h3, h4, h5⟩⟩

example : (WorldInfo.fromEnv (envOf [("LOCAL_RANK", "3"), ("LOCAL_WORLD_SIZE", "4")] [("3", 3), ("4", 4)])).toOption =
    some ⟨0, 1, 3, 4⟩ := by decide +kernel

/-! ## Clusters -/

/-- The handler for a name: the last one of that name. -/
def LastNamed (handlers : List Handler) (name : String) (h : Handler) : Prop :=
  ∃ before after, handlers = before ++ h :: after ∧ h.cluster = name ∧ ∀ x ∈ after, x.cluster ≠ name

private theorem find_place (h : Handler) (name : String) (d : List Handler) :
    (place h d).find? (fun x => x.cluster == name) =
      if h.cluster = name then some h else d.find? (fun x => x.cluster == name) := by
  induction d with
  | nil =>
    by_cases hn : h.cluster = name <;> simp [place, hn]
  | cons y ys ih =>
    unfold place
    by_cases hy : y.cluster = h.cluster
    · rw [if_pos hy]
      by_cases hn : h.cluster = name
      · simp [hn]
      · simp [hn, show ¬ y.cluster = name by rw [hy]; exact hn]
    · rw [if_neg hy, List.find?_cons, List.find?_cons, ih]
      by_cases hn : h.cluster = name
      · have : ¬ y.cluster = name := by rw [← hn]; exact hy
        have hb : (y.cluster == name) = false := by simpa using this
        rw [hb, if_pos hn]
      · simp only [if_neg hn]

private theorem find_dict (name : String) (handlers : List Handler) : ∀ d : List Handler,
    (handlers.foldl (fun d h => place h d) d).find? (fun x => x.cluster == name) =
      (match handlers.reverse.find? (fun x => x.cluster == name) with
        | some h => some h
        | none => d.find? (fun x => x.cluster == name)) := by
  induction handlers with
  | nil => intro d; rfl
  | cons h hs ih =>
    intro d
    rw [List.foldl_cons, ih, List.reverse_cons, List.find?_append, find_place]
    cases hs.reverse.find? (fun x => x.cluster == name) with
    | some x => rfl
    | none =>
      by_cases hn : h.cluster = name <;> simp [hn]

private theorem find_last {handlers : List Handler} {name : String} {h : Handler} :
    handlers.reverse.find? (fun x => x.cluster == name) = some h ↔ LastNamed handlers name h := by
  rw [List.find?_eq_some_iff_append]
  unfold LastNamed
  constructor
  · rintro ⟨hn, as, bs, he, hno⟩
    refine ⟨bs.reverse, as.reverse, ?_, by simpa using hn, ?_⟩
    · have := congrArg List.reverse he
      simpa using this
    · intro x hx
      have := hno x (List.mem_reverse.1 hx)
      simpa using this
  · rintro ⟨before, after, he, hn, hno⟩
    refine ⟨by simpa using hn, after.reverse, before.reverse, by rw [he]; simp, ?_⟩
    intro x hx
    have := hno x (List.mem_reverse.1 hx)
    simpa using this

/-- **C124.** A cluster that is named is handled by the last handler registered with the name, and refused if there is none. -/
theorem C124_named_cluster (env : Environment) (handlers : List Handler) (name : String) (h1 : name ≠ "none")
    (h2 : name ≠ "auto") :
    (∀ h, resolve env handlers name = .ok (some h) ↔ LastNamed handlers name h) ∧
    (resolve env handlers name = .error (.clusterNotKnown name) ↔ ∀ h ∈ handlers, h.cluster ≠ name) := by
  have hr : resolve env handlers name =
      (match handlers.reverse.find? (fun x => x.cluster == name) with
        | some h => .ok (some h)
        | none => .error (.clusterNotKnown name)) := by
    unfold resolve handlerDict
    rw [if_neg h1, if_neg h2, find_dict]
    cases handlers.reverse.find? (fun x => x.cluster == name) <;> rfl
  rw [hr]
  constructor
  · intro h
    rw [← find_last]
    cases handlers.reverse.find? (fun x => x.cluster == name) with
    | none => simp
    | some x => simp
  · cases hf : handlers.reverse.find? (fun x => x.cluster == name) with
    | none =>
      rw [List.find?_eq_none] at hf
      simp only [true_iff]
      intro h hh
      have := hf h (List.mem_reverse.2 hh)
      simpa using this
    | some x =>
      have hx := List.find?_some hf
      have hm := List.mem_of_find?_eq_some hf
      simp only [reduceCtorEq, false_iff]
      intro hall
      exact hall x (List.mem_reverse.1 hm) (by simpa using hx)

private theorem dict_new (handlers : List Handler) : ∀ d : List Handler,
    ((d ++ handlers).map Handler.cluster).Nodup → handlers.foldl (fun d h => place h d) d = d ++ handlers := by
  induction handlers with
  | nil => intro d _; simp
  | cons h hs ih =>
    intro d hd
    have hp : place h d = d ++ [h] := by
      have hno : ∀ x ∈ d, x.cluster ≠ h.cluster := by
        intro x hx he
        rw [List.map_append, List.nodup_append] at hd
        exact hd.2.2 _ (List.mem_map_of_mem hx) _ (List.mem_map_of_mem List.mem_cons_self) he
      clear ih hd
      induction d with
      | nil => rfl
      | cons y ys ihd =>
        unfold place
        rw [if_neg (hno y List.mem_cons_self), ihd fun x hx => hno x (List.mem_cons_of_mem _ hx)]
        rfl
    rw [List.foldl_cons, hp, ih _ (by simpa using hd)]
    simp

/-- **C124.** Without a name the environment is left as it is if it has a rank and a size already. Else the first handler that
supports the cluster is used, of handlers with different names; with none of them, nothing is done. -/
theorem C124_auto_cluster (env : Environment) (handlers : List Handler) :
    (env.get "RANK" ≠ none → env.get "WORLD_SIZE" ≠ none → resolve env handlers "auto" = .ok none) ∧
    (env.get "RANK" = none ∨ env.get "WORLD_SIZE" = none → (handlers.map Handler.cluster).Nodup →
      (∀ before h after, handlers = before ++ h :: after → h.supports = true → (∀ x ∈ before, x.supports = false) →
        resolve env handlers "auto" = .ok (some h)) ∧
      ((∀ h ∈ handlers, h.supports = false) → resolve env handlers "auto" = .ok none)) ∧
    resolve env handlers "none" = .ok none := by
  refine ⟨?_, ?_, by simp [resolve]⟩
  · intro h1 h2
    have e1 := Option.isSome_iff_ne_none.2 h1
    have e2 := Option.isSome_iff_ne_none.2 h2
    simp [resolve, e1, e2]
  · intro h hnd
    have hcond : ((env.get "RANK").isSome && (env.get "WORLD_SIZE").isSome) = false := by
      rcases h with h | h <;> simp [h]
    have hd : handlerDict handlers = handlers := by
      have := dict_new handlers [] (by simpa using hnd)
      simpa [handlerDict] using this
    have hr : resolve env handlers "auto" = .ok (handlers.find? fun h => h.supports) := by
      unfold resolve
      rw [if_neg (by decide), if_pos rfl, hcond, hd]
      rfl
    rw [hr]
    constructor
    · intro before h after he hs hb
      congr 1
      rw [List.find?_eq_some_iff_append]
      refine ⟨hs, before, after, he, ?_⟩
      intro x hx
      simp [hb x hx]
    · intro hall
      congr 1
      rw [List.find?_eq_none]
      intro x hx
      simp [hall x hx]

example : (resolve (envOf [] []) [⟨"a", 0, false⟩, ⟨"slurm", 1, true⟩, ⟨"b", 2, true⟩] "auto").toOption =
    some (some ⟨"slurm", 1, true⟩) := by decide +kernel

/-! ## Devices -/

/-- **C124.** A device that is named is used, or refused if there is no such device, whatever else is set. -/
theorem C124_named_device (env : Environment) (host : Host) (s : String) (h : env.get "FAIRSEQ2_DEVICE" = some s) :
    detect env host = if host.validDevice s then .ok (.named s) else .error (.variable "FAIRSEQ2_DEVICE") := by
  simp only [detect, h]

/-- **C124.** Without a name for the device, and unless one visible device is given by a number, the process with local rank `r` on
a host with CUDA uses the device `r`, or fails if there is none. So different processes of a host use different devices. -/
theorem C124_ranks_apart (env : Environment) (host : Host) (r : Nat) (h1 : env.get "FAIRSEQ2_DEVICE" = none)
    (hc : host.cudaAvailable = true) (hd : 0 < host.deviceCount)
    (h2 : ∀ s, env.get "CUDA_VISIBLE_DEVICES" = some s → env.parseInt s = none) (h3 : SetTo env "LOCAL_RANK" r) :
    detect env host = if r < host.deviceCount then .ok (.cuda r) else .error (.localRankOutOfRange r host.deviceCount) := by
  have hs : singleDevice env = false := by
    unfold singleDevice
    split
    · rfl
    · rename_i s hs
      rw [h2 s hs]; rfl
  have hi : deviceIndex env host.deviceCount =
      if r < host.deviceCount then .ok r else .error (.localRankOutOfRange r host.deviceCount) := by
    unfold deviceIndex
    rw [getRank_some.2 h3]
    simp only
    by_cases hlt : r < host.deviceCount
    · rw [if_neg (by omega), if_pos hlt]
    · rw [if_pos (by omega), if_neg hlt]
  unfold detect cudaDevice
  rw [h1]
  simp only [hc, hs, Bool.true_eq_false, if_false, if_neg (show ¬ host.deviceCount = 0 by omega), Bool.false_eq_true, hi]
  by_cases hlt : r < host.deviceCount
  · simp only [if_pos hlt]
  · simp only [if_neg hlt]

/-- **C124.** One visible device that is given by a number is used by the process, whatever its local rank is; and without CUDA or
without devices the CPU is used. -/
theorem C124_single_device (env : Environment) (host : Host) (h1 : env.get "FAIRSEQ2_DEVICE" = none) :
    (∀ v, host.cudaAvailable = true → 0 < host.deviceCount → SetTo env "CUDA_VISIBLE_DEVICES" v →
      detect env host = .ok (.cuda 0)) ∧
    (host.cudaAvailable = false ∨ host.deviceCount = 0 → detect env host = .ok .cpu) := by
  constructor
  · rintro v hc hd ⟨s, hs, hv⟩
    simp [detect, h1, cudaDevice, hc, show ¬ host.deviceCount = 0 by omega, singleDevice, hs, hv]
  · rintro (h | h)
    · simp [detect, h1, cudaDevice, h]
    · by_cases hc : host.cudaAvailable = false <;> simp [detect, h1, cudaDevice, h]

/-- **C124, violated.** By the documentation the CPU is used if CUDA is enabled but neither one visible device nor a local rank is
given. Every such process uses the first CUDA device, so that all processes started by hand on a host share it. -/
theorem C124_cpu_negation (env : Environment) (host : Host) (h1 : env.get "FAIRSEQ2_DEVICE" = none)
    (hc : host.cudaAvailable = true) (hd : 0 < host.deviceCount) (h2 : env.get "CUDA_VISIBLE_DEVICES" = none)
    (h3 : env.get "LOCAL_RANK" = none) : detect env host = .ok (.cuda 0) := by
  simp [detect, h1, cudaDevice, hc, show ¬ host.deviceCount = 0 by omega, singleDevice, h2, deviceIndex, getRank_none.2 h3]

/-- **C124, violated.** One visible device is not recognised if it is given by its identifier. Every process with a positive local
rank that sees one device, given so, fails. -/
theorem C124_uuid_negation (env : Environment) (host : Host) (s : String) (r : Nat) (h1 : env.get "FAIRSEQ2_DEVICE" = none)
    (hc : host.cudaAvailable = true) (hd : host.deviceCount = 1) (h2 : env.get "CUDA_VISIBLE_DEVICES" = some s)
    (h3 : env.parseInt s = none) (h4 : SetTo env "LOCAL_RANK" r) (hr : 0 < r) :
    detect env host = .error (.localRankOutOfRange r 1) := by
  rw [C124_ranks_apart env host r h1 hc (by omega) (fun t ht => by rw [h2] at ht; cases ht; exact h3) h4, hd, if_neg (by omega)]

/-- The hypotheses are met: a host with one device seen by local rank 1, by number and by identifier. -/
example : (detect (envOf [("CUDA_VISIBLE_DEVICES", "1"), ("LOCAL_RANK", "1")] [("1", 1)]) ⟨true, 1, fun _ => true⟩).toOption =
    some (.cuda 0) := by decide +kernel

example : (detect (envOf [("CUDA_VISIBLE_DEVICES", "GPU-8932f937"), ("LOCAL_RANK", "1")] [("1", 1)])
    ⟨true, 1, fun _ => true⟩).toOption = none := by decide +kernel

end Fs2.Props
