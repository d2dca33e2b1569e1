import Verif.Shard.NativeLoad
import Verif.Props.Reshard

/-!
# C84: loading native checkpoints
-/

namespace Fs2.Props
open Fs2.Shard

variable {α : Type}

/-! ### Specification -/

/-- A parameter of a model: its name, its whole value, and which object holds its first piece. Shared parameters have
the same object. -/
structure Param (α : Type) where
  key : String
  full : Mat α
  obj : Nat

/-- `ps` are the pieces of a parameter in files of consecutive data parallel ranks: the last ranks may have none. -/
def FoundIn (key : String) : List (StateFile α) → List (Nat × Mat α) → Prop
  | [], ps => ps = []
  | f :: fs, ps => (f.lookup key = none ∧ ps = []) ∨
      ∃ id m r, f.lookup key = some (.tensor id m) ∧ ps = (id, m) :: r ∧ FoundIn key fs r

/-- A parameter is written in the files of a pipeline stage by `tp` times `dp` ranks. Its first piece is in the first file.
It is sharded along a dimension that `tp` and `target` divide, or every rank has it all. -/
structure Written (p : Param α) (dim : Option Nat) (tp dp target : Nat) (stage : List (List (StateFile α))) : Prop where
  found : ∃ splits : List (List (Nat × Mat α)), splits.length = tp ∧
    (∀ j (h : j < stage.length) (h' : j < splits.length), FoundIn p.key stage[j] splits[j]) ∧
    (∃ m r s, splits = ((p.obj, m) :: r) :: s) ∧
    match dim with
    | none => ∀ ps ∈ splits, ps.length ≤ dp ∧ Mat.cat (ps.map (·.2)) 0 = some p.full
    | some d => p.full.Wf ∧ (∃ total, p.full.size d = some total ∧ 0 < total ∧ tp ∣ total ∧ target ∣ total) ∧
        IsCheckpoint p.full d tp dp (splits.map fun s => s.map (·.2))

/-- The files of one pipeline stage with its parameters. -/
structure StageOf (params : List (Param α)) (dims : String → Option Nat) (tp dp target : Nat)
    (stage : List (List (StateFile α))) : Prop where
  tpSize : stage.length = tp
  dpSize : ∀ fs ∈ stage, fs.length = dp
  keys : ∀ fs f, stage.head? = some fs → fs.head? = some f → f.map (·.1) = params.map (·.key)
  written : ∀ p ∈ params, Written p (dims p.key) tp dp target stage

/-- The value of a parameter that a tensor parallel rank is to have. -/
def PartOf (dim : Option Nat) (n rank : Nat) (p : Param α) (t : Mat α) : Prop :=
  match dim with
  | none => t = p.full
  | some d => IsShard p.full d n rank t

/-- What is loaded: parts of the parameters, in order, each object once, under its first name. -/
structure LoadedFrom (params : List (Param α)) (dims : String → Option Nat) (n rank : Nat)
    (out : List (String × Mat α)) : Prop where
  once : ∃ kept : List (Param α), kept.Sublist params ∧ (kept.map (·.obj)).Nodup ∧
    (∀ p ∈ params, ∃ q ∈ kept, q.obj = p.obj) ∧ (∀ q ∈ kept, params.find? (fun p => p.obj == q.obj) = some q) ∧
    out.length = kept.length ∧
    ∀ i (h : i < kept.length) (h' : i < out.length),
      out[i].1 = kept[i].key ∧ PartOf (dims kept[i].key) n rank kept[i] out[i].2

/-- The directory holds exactly these files. -/
def dirOf (files : List (List (List (StateFile α)))) : Directory α :=
  files.map fun tp => some (tp.map fun dp => some (dp.map some))

/-! ### Lemmas -/

theorem present_some {β : Type} (l : List β) : present (l.map some) = l := by
  induction l with
  | nil => rfl
  | cons b l ih => rw [List.map_cons, present, ih]

theorem scan_files (files : List (List (List (StateFile α)))) (tp dp : Nat) (htp : 0 < tp) (hdp : 0 < dp)
    (hne : files ≠ []) (h1 : ∀ t ∈ files, t.length = tp) (h2 : ∀ t ∈ files, ∀ d ∈ t, d.length = dp) :
    scan (dirOf files) = .ok files := by
  have hp : (present (dirOf files)).map (fun tp => (present tp).map present) = files := by
    have e1 : present (dirOf files) = files.map fun tp => tp.map fun dp => some (dp.map some) := by
      unfold dirOf
      rw [show (files.map fun tp => some (tp.map fun dp => some (dp.map some))) =
        (files.map fun tp => tp.map fun dp => some (dp.map some)).map some by simp]
      exact present_some _
    rw [e1, List.map_map]
    conv => rhs; rw [← List.map_id files]
    refine List.map_congr_left fun t _ => ?_
    simp only [Function.comp, id]
    have e2 : (t.map fun dp => some (dp.map some)) = (t.map fun dp => dp.map some).map some := by simp
    rw [e2, present_some, List.map_map]
    conv => rhs; rw [← List.map_id t]
    refine List.map_congr_left fun d _ => ?_
    exact present_some d
  unfold scan
  simp only [hp]
  match files, hne, h1, h2 with
  | t :: ts, _, h1, h2 =>
    have ht := h1 t (by simp)
    match t, ht, h1, h2 with
    | [], ht, _, _ => simp at ht; omega
    | d :: ds, ht, h1, h2 =>
      have hd := h2 (d :: ds) (by simp) d (by simp)
      simp only
      rw [if_neg, if_neg]
      · simp only [List.any_eq_true, decide_eq_true_eq, not_exists, not_and]
        rintro t' ht'
        have ht1 : t'.length = tp := h1 t' ht'
        simp only [List.length_cons] at ht
        rintro (hc | ⟨d', hd', hc⟩)
        · exact hc (by omega)
        · have := h2 t' ht' d' hd'
          exact hc (by omega)
      · simp only [List.isEmpty_iff]
        intro hc
        subst hc
        simp at hd; omega

private theorem piecesOf_found {key : String} {fs : List (StateFile α)} {ps : List (Nat × Mat α)}
    (h : FoundIn key fs ps) : piecesOf key fs = .ok ps := by
  induction fs generalizing ps with
  | nil => cases h; rfl
  | cons f fs ih =>
    rw [piecesOf]
    rcases h with ⟨h, rfl⟩ | ⟨id, m, r, h, rfl, hr⟩
    · rw [h]
    · rw [h]; simp only [ih hr]

private theorem allPieces_found {key : String} {stage : List (List (StateFile α))} {splits : List (List (Nat × Mat α))}
    (hl : splits.length = stage.length)
    (h : ∀ j (h : j < stage.length) (h' : j < splits.length), FoundIn key stage[j] splits[j]) :
    allPieces key stage = .ok splits := by
  induction stage generalizing splits with
  | nil =>
    match splits, hl with
    | [], _ => rfl
  | cons fs stage ih =>
    match splits, hl with
    | s :: splits, hl =>
      have h0 : FoundIn key fs s := h 0 (by simp) (by simp)
      rw [allPieces, piecesOf_found h0]
      simp only
      rw [ih (by simpa using hl) fun j h1 h2 => h (j + 1) (by simpa using h1) (by simpa using h2)]

/-- The loop over keys whose parameters can all be put together. -/
private theorem keysLoop_loads (stage : List (List (StateFile α))) (z : Sizes) (dims : String → Option Nat)
    (n rank : Nat) (params : List (Param α))
    (h : ∀ p ∈ params, ∃ splits m r s t, allPieces p.key stage = .ok splits ∧ splits = ((p.obj, m) :: r) :: s ∧
      reshard (splits.map fun s => s.map (·.2)) z.sourceTp z.sourceDp z.targetTp z.targetRank (dims p.key) = some t ∧
      PartOf (dims p.key) n rank p t) (memo : List Nat) :
    ∃ (out : List (String × Mat α)) (kept : List (Param α)), keysLoop stage z dims (params.map (·.key)) memo = .ok out ∧ kept.Sublist params ∧
      (kept.map (·.obj)).Nodup ∧ (∀ q ∈ kept, q.obj ∉ memo) ∧
      (∀ p ∈ params, p.obj ∈ memo ∨ ∃ q ∈ kept, q.obj = p.obj) ∧
      (∀ q ∈ kept, params.find? (fun p => p.obj == q.obj) = some q) ∧ out.length = kept.length ∧
      ∀ i (h : i < kept.length) (h' : i < out.length),
        out[i].1 = kept[i].key ∧ PartOf (dims kept[i].key) n rank kept[i] out[i].2 := by
  induction params generalizing memo with
  | nil =>
    refine ⟨[], [], rfl, List.Sublist.refl _, by simp, ?_, ?_, ?_, rfl, ?_⟩
    · intro q hq; cases hq
    · intro q hq; cases hq
    · intro q hq; cases hq
    · intro i h; cases h
  | cons p params ih =>
    obtain ⟨splits, m, r, s, t, h1, h2, h3, h4⟩ := h p (by simp)
    have ih := ih fun q hq => h q (by simp [hq])
    rw [List.map_cons, keysLoop, h1]
    subst h2
    simp only
    by_cases hm : p.obj ∈ memo
    · rw [if_pos hm]
      obtain ⟨out, kept, a, b, c, d, e, e', f, g⟩ := ih memo
      refine ⟨out, kept, a, b.cons p, c, d, ?_, ?_, f, g⟩
      · intro q hq
        rcases List.mem_cons.1 hq with rfl | hq
        · exact .inl hm
        · exact e q hq
      · intro q hq
        have hne : (p.obj == q.obj) = false := by
          rw [beq_eq_false_iff_ne]; intro h; exact d q hq (h ▸ hm)
        rw [List.find?_cons, hne]; exact e' q hq
    · rw [if_neg hm, h3]
      obtain ⟨out, kept, a, b, c, d, e, e', f, g⟩ := ih (p.obj :: memo)
      simp only [a]
      refine ⟨_, p :: kept, rfl, b.cons_cons p, ?_, ?_, ?_, ?_, by simp [f], ?_⟩
      · rw [List.map_cons, List.nodup_cons]
        refine ⟨?_, c⟩
        intro hc
        obtain ⟨q, hq, hqe⟩ := List.mem_map.1 hc
        exact d q hq (by simp [hqe])
      · intro q hq
        rcases List.mem_cons.1 hq with rfl | hq
        · exact hm
        · intro hc; exact d q hq (by simp [hc])
      · intro q hq
        rcases List.mem_cons.1 hq with rfl | hq
        · exact .inr ⟨q, by simp, rfl⟩
        · rcases e q hq with he | ⟨q', hq', he⟩
          · rcases List.mem_cons.1 he with he | he
            · exact .inr ⟨p, by simp, he.symm⟩
            · exact .inl he
          · exact .inr ⟨q', by simp [hq'], he⟩
      · intro q hq
        rcases List.mem_cons.1 hq with rfl | hq
        · rw [List.find?_cons, beq_self_eq_true]
        · have hne : (p.obj == q.obj) = false := by
            rw [beq_eq_false_iff_ne]; intro h; exact d q hq (by simp [h])
          rw [List.find?_cons, hne]; exact e' q hq
      · intro i hi hi'
        cases i with
        | zero => exact ⟨rfl, h4⟩
        | succ i => exact g i (by simpa using hi) (by simpa using hi')

theorem stage_of_loop {stage : List (List (StateFile α))} {params : List (Param α)} {z : Sizes}
    {dims : String → Option Nat} {n rank : Nat} {fs : List (StateFile α)} {f : StateFile α}
    (hs : stage.head? = some fs) (hf : fs.head? = some f) (hk : f.map (·.1) = params.map (·.key))
    (h : ∀ p ∈ params, ∃ splits m r s t, allPieces p.key stage = .ok splits ∧ splits = ((p.obj, m) :: r) :: s ∧
      reshard (splits.map fun s => s.map (·.2)) z.sourceTp z.sourceDp z.targetTp z.targetRank (dims p.key) = some t ∧
      PartOf (dims p.key) n rank p t) :
    ∃ out, stageLoad z dims stage = .ok out ∧ LoadedFrom params dims n rank out := by
  obtain ⟨out, kept, a, b, c, -, e, e', f', g⟩ := keysLoop_loads stage z dims n rank params h []
  refine ⟨out, ?_, ⟨kept, b, c, fun p hp => (e p hp).elim (fun h => by cases h) id, e', f', g⟩⟩
  match stage, hs with
  | fs :: stage, hs =>
    cases hs
    match fs, hf with
    | f :: fs, hf =>
      cases hf
      rw [stageLoad, hk]; exact a

private def relabel (g : Nat → Nat) (p : Param α) : Param α := { p with obj := g p.obj }

private theorem loaded_relabel {g : Nat → Nat} (hg : ∀ a b, g a = g b → a = b) {params : List (Param α)}
    {dims : String → Option Nat} {n rank : Nat} {out : List (String × Mat α)}
    (h : LoadedFrom (params.map (relabel g)) dims n rank out) : LoadedFrom params dims n rank out := by
  obtain ⟨kept', h1, h2, h3, h3', h4, h5⟩ := h.once
  obtain ⟨kept, hk, rfl⟩ := List.sublist_map_iff.1 h1
  refine ⟨kept, hk, ?_, ?_, ?_, by simpa using h4, ?_⟩
  · rw [List.map_map] at h2
    unfold List.Nodup at h2 ⊢
    rw [List.pairwise_map] at h2 ⊢
    exact h2.imp fun {a b} hne he => hne (by simp [Function.comp, relabel, he])
  · intro p hp
    obtain ⟨q', hq', he⟩ := h3 (relabel g p) (List.mem_map_of_mem hp)
    obtain ⟨q, hq, rfl⟩ := List.mem_map.1 hq'
    exact ⟨q, hq, hg _ _ he⟩
  · intro q hq
    have hf := h3' (relabel g q) (List.mem_map_of_mem hq)
    rw [List.find?_map] at hf
    have hfun : ((fun p => p.obj == (relabel g q).obj) ∘ relabel g) = fun p : Param α => p.obj == q.obj := by
      funext p
      simp only [Function.comp, relabel]
      by_cases hpq : p.obj = q.obj
      · simp [hpq]
      · rw [beq_eq_false_iff_ne.2 hpq, beq_eq_false_iff_ne]; exact fun h => hpq (hg _ _ h)
    rw [hfun] at hf
    cases hp : params.find? (fun p => p.obj == q.obj) with
    | none => rw [hp] at hf; cases hf
    | some p =>
      rw [hp] at hf
      simp only [Option.map_some, Option.some.injEq, relabel, Param.mk.injEq] at hf
      obtain ⟨a, b, c⟩ := hf
      cases p; cases q
      simp only at a b c
      rw [a, b, hg _ _ c]
  · intro i hi hi'
    have := h5 i (by simpa using hi) hi'
    simp only [List.getElem_map, relabel] at this
    refine ⟨this.1, ?_⟩
    cases hd : dims kept[i].key with
    | none => rw [hd] at this; exact this.2
    | some d => rw [hd] at this; exact this.2

/-! ### C84 -/

/-- **All stages.** A process whose gangs have other sizes than the checkpoint gets, from the parameters of all pipeline
stages, exactly its tensor parallel shard of the whole value of each, however the value was split over files; a parameter
that is not sharded it gets whole; an object that is shared by parameters of a stage it gets once, under the first name. -/
theorem C84_resharded (files : List (List (List (StateFile α)))) (params : List (List (Param α)))
    (dims : String → Option Nat) (tp dp : Nat) (p : Place) (htp : 0 < tp) (hdp : 0 < dp) (hne : files ≠ [])
    (hlen : files.length = params.length)
    (hst : ∀ i (h : i < files.length) (h' : i < params.length), StageOf params[i] dims tp dp p.tpSize files[i])
    (hrank : p.tpRank < p.tpSize) (hother : ¬ (p.ppSize = files.length ∧ p.tpSize = tp)) :
    ∃ outs : List (List (String × Mat α)), nativeLoad (dirOf files) p dims = .ok outs.flatten ∧
      outs.length = params.length ∧
      ∀ i (h : i < params.length) (h' : i < outs.length), LoadedFrom params[i] dims p.tpSize p.tpRank outs[i] := by
  have hst' : ∀ t ∈ files, ∃ ps, StageOf ps dims tp dp p.tpSize t := by
    intro t ht
    obtain ⟨i, hi, rfl⟩ := List.mem_iff_getElem.1 ht
    exact ⟨_, hst i hi (by omega)⟩
  have hscan := scan_files files tp dp htp hdp hne (fun t ht => (hst' t ht).elim fun ps h => h.tpSize)
    (fun t ht d hd => (hst' t ht).elim fun ps h => h.dpSize d hd)
  have hhead : (files.headD []).length = tp ∧ ((files.headD []).headD []).length = dp := by
    match files, hne, hst' with
    | t :: ts, _, hst' =>
      obtain ⟨ps, h⟩ := hst' t (by simp)
      refine ⟨h.tpSize, ?_⟩
      match t, h with
      | [], h => have := h.tpSize; simp at this; omega
      | d :: t, h => exact h.dpSize d (by simp)
  have key : ∀ (files : List (List (List (StateFile α)))) (params : List (List (Param α))),
      files.length = params.length →
      (∀ i (h : i < files.length) (h' : i < params.length), StageOf params[i] dims tp dp p.tpSize files[i]) →
      ∃ outs : List (List (String × Mat α)), stagesLoad ⟨tp, dp, p.tpSize, p.tpRank⟩ dims files = .ok outs.flatten ∧
        outs.length = params.length ∧
        ∀ i (h : i < params.length) (h' : i < outs.length), LoadedFrom params[i] dims p.tpSize p.tpRank outs[i] := by
    intro files
    induction files with
    | nil =>
      intro params hl _
      match params, hl with
      | [], _ => exact ⟨[], rfl, rfl, fun i h => by cases h⟩
    | cons stage files ih =>
      intro params hl hst
      match params, hl with
      | ps :: params, hl =>
        obtain ⟨outs, h1, h2, h3⟩ := ih params (by simpa using hl)
          fun i a b => hst (i + 1) (by simpa using a) (by simpa using b)
        have hs := hst 0 (by simp) (by simp)
        simp only [List.getElem_cons_zero] at hs
        have hstage : ∃ fs f, stage.head? = some fs ∧ fs.head? = some f := by
          match stage, hs with
          | [], hs => have := hs.tpSize; simp at this; omega
          | fs :: r, hs =>
            match fs, hs with
            | [], hs => have := hs.dpSize [] (by simp); simp at this; omega
            | f :: fs, _ => exact ⟨_, _, rfl, rfl⟩
        obtain ⟨fs, f, hs1, hs2⟩ := hstage
        obtain ⟨out, h4, h5⟩ := stage_of_loop (dims := dims) (z := ⟨tp, dp, p.tpSize, p.tpRank⟩) (n := p.tpSize) (rank := p.tpRank)
          hs1 hs2 (hs.keys fs f hs1 hs2) (by
          intro q hq
          obtain ⟨splits, a, b, ⟨m, r, s, c⟩, d⟩ := (hs.written q hq).found
          have hall := allPieces_found (a.trans hs.tpSize.symm) b
          cases hd : dims q.key with
          | none =>
            rw [hd] at d
            refine ⟨splits, m, r, s, q.full, hall, c, ?_, by rw [PartOf]⟩
            refine C54_replicated q.full tp dp p.tpSize p.tpRank _ (by simp [a]) htp ?_ hrank
            intro x hx
            obtain ⟨y, hy, rfl⟩ := List.mem_map.1 hx
            have := d y hy
            exact ⟨by simpa using this.1, this.2⟩
          | some dim =>
            rw [hd] at d
            obtain ⟨hw, ⟨total, e1, e2, e3, e4⟩, hck⟩ := d
            obtain ⟨t, f1, f2⟩ := C54_shard_partial q.full hw dim tp dp p.tpSize p.tpRank total _ hck e1 e2 e3 e4 hrank
            exact ⟨splits, m, r, s, t, hall, c, f1, by rw [PartOf]; exact f2⟩)
        refine ⟨out :: outs, ?_, by simp [h2], ?_⟩
        · rw [stagesLoad, h4]
          simp only [h1, List.flatten_cons]
        · intro i hi hi'
          cases i with
          | zero => exact h5
          | succ i => exact h3 i (by simpa using hi) (by simpa using hi')
  obtain ⟨outs, h1, h2, h3⟩ := key files params hlen hst
  refine ⟨outs, ?_, h2, h3⟩
  unfold nativeLoad
  rw [hscan]
  simp only [hhead.1, hhead.2]
  rw [if_neg hother, h1]

/-- **The own stage.** A process whose pipeline and tensor parallel sizes are those of the checkpoint gets the parameters
of its own stage, its shard of each; it reads only its own files. -/
theorem C84_same_sizes (files : List (List (List (StateFile α)))) (params : List (List (Param α)))
    (dims : String → Option Nat) (dp : Nat) (p : Place) (hdp : 0 < dp) (hlen : files.length = params.length)
    (hst : ∀ i (h : i < files.length) (h' : i < params.length), StageOf params[i] dims p.tpSize dp p.tpSize files[i])
    (hkeys : ∀ t ∈ files, ∀ fs ∈ t, ∀ fs' ∈ t, (fs.headD []).map (·.1) = (fs'.headD []).map (·.1))
    (hobj : ∀ i (h : i < files.length) (h' : i < params.length), ∀ fs ∈ files[i], ∃ g : Nat → Nat,
      (∀ a b, g a = g b → a = b) ∧ ∀ q ∈ params[i], ∃ m, (fs.headD []).lookup q.key = some (.tensor (g q.obj) m))
    (hpp : p.ppSize = files.length) (hr : p.ppRank < p.ppSize) (hrank : p.tpRank < p.tpSize) :
    ∃ out, nativeLoad (dirOf files) p dims = .ok out ∧
      LoadedFrom (params[p.ppRank]'(by omega)) dims p.tpSize p.tpRank out := by
  have hi : p.ppRank < files.length := by omega
  have hst' : ∀ t ∈ files, ∃ ps, StageOf ps dims p.tpSize dp p.tpSize t := by
    intro t ht
    obtain ⟨i, hi, rfl⟩ := List.mem_iff_getElem.1 ht
    exact ⟨_, hst i hi (by omega)⟩
  have hne : files ≠ [] := by intro h; rw [h] at hi; simp at hi
  have hscan := scan_files files p.tpSize dp (by omega) hdp hne (fun t ht => (hst' t ht).elim fun ps h => h.tpSize)
    (fun t ht d hd => (hst' t ht).elim fun ps h => h.dpSize d hd)
  have hhead : (files.headD []).length = p.tpSize ∧ ((files.headD []).headD []).length = dp := by
    match files, hne, hst' with
    | t :: ts, _, hst' =>
      obtain ⟨ps, h⟩ := hst' t (by simp)
      refine ⟨h.tpSize, ?_⟩
      match t, h with
      | [], h => have := h.tpSize; simp at this; omega
      | d :: t, h => exact h.dpSize d (by simp)
  have hs := hst p.ppRank hi (by omega)
  have hti : p.tpRank < files[p.ppRank].length := by rw [hs.tpSize]; exact hrank
  have hmem : files[p.ppRank][p.tpRank] ∈ files[p.ppRank] := List.getElem_mem hti
  have hdpl := hs.dpSize _ hmem
  obtain ⟨f, hf⟩ : ∃ f, files[p.ppRank][p.tpRank].head? = some f := by
    cases h : files[p.ppRank][p.tpRank] with
    | nil => rw [h] at hdpl; simp at hdpl; omega
    | cons f r => exact ⟨f, rfl⟩
  have hfd : files[p.ppRank][p.tpRank].headD [] = f := by
    rw [List.headD_eq_head?_getD, hf]; rfl
  have h0 : 0 < files[p.ppRank].length := by omega
  obtain ⟨f0, hf0⟩ : ∃ f, files[p.ppRank][0].head? = some f := by
    have := hs.dpSize _ (List.getElem_mem h0)
    cases h : files[p.ppRank][0] with
    | nil => rw [h] at this; simp at this; omega
    | cons f r => exact ⟨f, rfl⟩
  have hk : f.map (·.1) = (params[p.ppRank]'(by omega)).map (·.key) := by
    have h1 := hs.keys _ f0 (by rw [List.head?_eq_getElem?, List.getElem?_eq_getElem h0]) hf0
    have h2 := hkeys _ (List.getElem_mem hi) _ hmem _ (List.getElem_mem h0)
    rw [hfd, show files[p.ppRank][0].headD [] = f0 by rw [List.headD_eq_head?_getD, hf0]; rfl] at h2
    rw [h2, h1]
  obtain ⟨g, hg, hobj⟩ := hobj p.ppRank hi (by omega) _ hmem
  have hk' : f.map (·.1) = ((params[p.ppRank]'(by omega)).map (relabel g)).map (·.key) := by
    rw [hk, List.map_map]; rfl
  obtain ⟨out, h4, h5⟩ := stage_of_loop (stage := [files[p.ppRank][p.tpRank]]) (z := ⟨1, dp, 1, 0⟩) (n := p.tpSize)
    (rank := p.tpRank) (dims := dims) rfl hf hk' (by
    intro q' hq'
    obtain ⟨q, hq, rfl⟩ := List.mem_map.1 hq'
    simp only [relabel]
    obtain ⟨splits, a, b, -, d⟩ := (hs.written q hq).found
    have hji : p.tpRank < splits.length := by omega
    have hfound := b p.tpRank hti hji
    -- the first piece is in the first file
    obtain ⟨m0, hm0⟩ := hobj q hq
    rw [hfd] at hm0
    have hcons : ∃ m r, splits[p.tpRank] = (g q.obj, m) :: r := by
      cases hF : files[p.ppRank][p.tpRank] with
      | nil => rw [hF] at hf; cases hf
      | cons f' fs' =>
        rw [hF] at hf hfound
        cases hf
        rcases hfound with ⟨h, -⟩ | ⟨id, m, r, h, hr, -⟩
        · rw [hm0] at h; cases h
        · rw [hm0] at h; cases h; exact ⟨_, _, hr⟩
    obtain ⟨m, r, hmr⟩ := hcons
    have hall : allPieces q.key [files[p.ppRank][p.tpRank]] = .ok [splits[p.tpRank]] := by
      rw [allPieces, piecesOf_found hfound]; rfl
    cases hd : dims q.key with
    | none =>
      rw [hd] at d
      have hd' := d _ (List.getElem_mem hji)
      refine ⟨[splits[p.tpRank]], m, r, [], q.full, hall, by rw [hmr], ?_, by rw [PartOf]⟩
      simp only [reshard, if_true, List.map_cons, List.map_nil, List.getElem?_cons_zero, Option.bind_eq_bind,
        Option.bind_some]
      rw [catDp_eq (by simpa using hd'.1), hd'.2]
    | some dim =>
      rw [hd] at d
      obtain ⟨hw, -, hck⟩ := d
      obtain ⟨e1, part, e2, e3⟩ := hck.pieces p.tpRank (splits[p.tpRank].map (·.2)) (by
        rw [List.getElem?_map, List.getElem?_eq_getElem hji]; rfl)
      refine ⟨[splits[p.tpRank]], m, r, [], part, hall, by rw [hmr], ?_, by rw [PartOf]; exact e2⟩
      simp only [reshard, if_true, List.map_cons, List.map_nil, List.getElem?_cons_zero, Option.bind_eq_bind,
        Option.bind_some]
      rw [catDp_eq (by simpa using e1), e3])
  refine ⟨out, ?_, loaded_relabel hg h5⟩
  unfold nativeLoad
  rw [hscan]
  simp only [hhead.1, hhead.2]
  rw [if_pos ⟨hpp, trivial⟩, List.getElem?_eq_getElem hi]
  simp only
  rw [List.getElem?_eq_getElem hti]
  simp only [stagesLoad, h4, List.append_nil]

/-- Numbered things exist up to `n` and not at `n`. -/
def Extent {β : Type} (l : List (Option β)) (n : Nat) : Prop :=
  (∀ i, i < n → ∃ b, l[i]? = some (some b)) ∧ ∀ b, l[n]? ≠ some (some b)

/-- All stages have `tp` directories, all of which have `dp` files. -/
def Uniform (dir : Directory α) (tp dp : Nat) : Prop :=
  0 < tp ∧ 0 < dp ∧ ∃ n, 0 < n ∧ Extent dir n ∧ ∀ i t, i < n → dir[i]? = some (some t) →
    Extent t tp ∧ ∀ j d, j < tp → t[j]? = some (some d) → Extent d dp

private theorem present_extent {β : Type} (l : List (Option β)) : Extent l (present l).length := by
  induction l with
  | nil => exact ⟨fun i h => (by cases h), fun b h => (by cases h)⟩
  | cons a l ih =>
    cases a with
    | none => exact ⟨fun i h => (by cases h), fun b h => (by cases h)⟩
    | some a =>
      refine ⟨fun i h => ?_, fun b h => ih.2 b (by simpa [present] using h)⟩
      cases i with
      | zero => exact ⟨a, rfl⟩
      | succ i => simpa using ih.1 i (by simpa [present] using h)

private theorem present_mem {β : Type} (l : List (Option β)) (i : Nat) (b : β) (hi : i < (present l).length)
    (h : l[i]? = some (some b)) : b ∈ present l := by
  induction l generalizing i with
  | nil => cases h
  | cons a l ih =>
    cases a with
    | none => cases hi
    | some a =>
      cases i with
      | zero => cases h; simp [present]
      | succ i => simp only [present, List.mem_cons]; exact .inr (ih i (by simpa [present] using hi) (by simpa using h))

/-- **Refusal.** A directory without files, or whose stages have different numbers of tensor parallel directories, or
those different numbers of files, is refused as corrupt by every process. -/
theorem C84_refused (dir : Directory α) (p : Place) (dims : String → Option Nat)
    (h : ¬ ∃ tp dp, Uniform dir tp dp) : nativeLoad dir p dims = .error .corrupt := by
  suffices hs : scan dir = .error .corrupt by unfold nativeLoad; rw [hs]
  unfold scan
  simp only
  split
  · rename_i dp tps rest hfiles
    split
    · rfl
    · rename_i hemp
      split
      · rfl
      · rename_i hany
        refine absurd ⟨tps.length + 1, dp.length, by omega, ?_, (present dir).length, ?_, present_extent dir, ?_⟩ h
        · simp only [List.isEmpty_iff] at hemp
          exact List.length_pos_iff.2 hemp
        · have := congrArg List.length hfiles
          simp only [List.length_map, List.length_cons] at this
          omega
        · intro i t hi ht
          have hmem := present_mem dir i t hi ht
          have hall : ∀ x ∈ (present dir).map (fun tp => (present tp).map present), x.length = tps.length + 1 ∧
              ∀ d ∈ x, d.length = dp.length := by
            intro x hx
            simp only [List.any_eq_true, decide_eq_true_eq, not_exists, not_and, not_or, Decidable.not_not] at hany
            have := hany x hx
            exact ⟨this.1, this.2⟩
          have h1 := hall _ (List.mem_map_of_mem hmem)
          rw [List.length_map] at h1
          refine ⟨h1.1 ▸ present_extent t, ?_⟩
          intro j d hj hd
          have := h1.2 (present d) (List.mem_map_of_mem (present_mem t j d (by omega) hd))
          exact this ▸ present_extent d
  · rfl

/-- **Refusal of other values.** A file with something that is not a tensor is refused. -/
theorem C84_not_tensor (f : StateFile α) (key : String) (dims : String → Option Nat) (p : Place)
    (hkey : f.lookup key = some .other) (hfirst : ∃ rest, f.map (·.1) = key :: rest) (hr : p.ppRank < p.ppSize)
    (ht : p.tpRank < p.tpSize) : nativeLoad (dirOf [[[f]]]) p dims = .error .corrupt := by
  obtain ⟨rest, hrest⟩ := hfirst
  have hz : ∀ z, stagesLoad z dims [[[f]]] = .error .corrupt := by
    intro z
    simp only [stagesLoad, stageLoad, hrest, keysLoop, allPieces, piecesOf, hkey]
  have hscan := scan_files [[[f]]] 1 1 (by omega) (by omega) (by simp) (by simp) (by simp)
  unfold nativeLoad
  rw [hscan]
  simp only [List.headD_cons, List.length_cons, List.length_nil, Nat.zero_add]
  split
  · rename_i h
    rw [show p.ppRank = 0 by omega, show p.tpRank = 0 by omega]
    simp only [List.getElem?_cons_zero]
    exact hz _
  · exact hz _

/-- **A lost stage.** If the directory of a stage in the middle is lost, the checkpoint is still accepted, and a process
that needs all stages gets no parameter of the stages from there on. -/
theorem C84_gap_negation : ∃ (s0 s1 s2 : List (List (StateFile Nat))) (out : List (String × Mat Nat)),
    (∃ k0 k1 k2, nativeLoad (dirOf [s0, s1, s2]) ⟨1, 0, 1, 0⟩ (fun _ => none) = .ok [k0, k1, k2]) ∧
    nativeLoad [some (s0.map fun d => some (d.map some)), none, some (s2.map fun d => some (d.map some))]
      ⟨1, 0, 1, 0⟩ (fun _ => none) = .ok out ∧ out.length = 1 :=
  ⟨[[[("a", .tensor 0 ⟨1, [[1]]⟩)]]], [[[("b", .tensor 1 ⟨1, [[2]]⟩)]]], [[[("c", .tensor 2 ⟨1, [[3]]⟩)]]], _,
    ⟨_, _, _, rfl⟩, rfl, rfl⟩

/-- **Stages of others.** A process of a pipeline with the stages of the checkpoint, whose tensor parallel size differs
from it, gets also the parameters of the stages of other processes. -/
theorem C84_stages_negation : ∃ (s0 s1 : List (List (StateFile Nat))) (m : Mat Nat) (out : List (String × Mat Nat)),
    nativeLoad (dirOf [s0, s1]) ⟨2, 0, 2, 0⟩ (fun _ => none) = .ok out ∧ ("b", m) ∈ out ∧
    ∀ fs ∈ s0, ∀ f ∈ fs, f.lookup "b" = none := by
  refine ⟨[[[("a", .tensor 0 ⟨1, [[1]]⟩)]]], [[[("b", .tensor 1 ⟨1, [[2]]⟩)]]], ⟨1, [[2]]⟩, _, rfl, ?_, ?_⟩
  · simp
  · simp

/-! ### Cases -/

private def full4 : Mat Nat := ⟨2, [[1, 2], [3, 4], [5, 6], [7, 8]]⟩

/-- Two tensor parallel ranks with two data parallel ranks each; `w` and its twin `v` are the same object, and are sharded
by rows, with the pieces of the second rank in one file; `n` is in the first files only. -/
private def stage4 : List (List (StateFile Nat)) :=
  [[[("w", .tensor 0 ⟨2, [[1, 2]]⟩), ("v", .tensor 0 ⟨2, [[1, 2]]⟩), ("n", .tensor 1 ⟨1, [[9]]⟩)],
    [("w", .tensor 2 ⟨2, [[3, 4]]⟩), ("v", .tensor 2 ⟨2, [[3, 4]]⟩)]],
   [[("w", .tensor 5 ⟨2, [[5, 6], [7, 8]]⟩), ("v", .tensor 5 ⟨2, [[5, 6], [7, 8]]⟩), ("n", .tensor 6 ⟨1, [[9]]⟩)],
    []]]

private def params4 : List (Param Nat) := [⟨"w", full4, 0⟩, ⟨"v", full4, 0⟩, ⟨"n", ⟨1, [[9]]⟩, 1⟩]

private def dims4 (k : String) : Option Nat := if k = "n" then none else some 0

private theorem stage4_of (target : Nat) (ht : target ∣ 4) : StageOf params4 dims4 2 2 target stage4 := by
  have hw : ∀ k, (k = "w" ∨ k = "v") → Written ⟨k, full4, 0⟩ (dims4 k) 2 2 target stage4 := by
    intro k hk
    have hd : dims4 k = some 0 := by rcases hk with rfl | rfl <;> rfl
    refine ⟨[[(0, ⟨2, [[1, 2]]⟩), (2, ⟨2, [[3, 4]]⟩)], [(5, ⟨2, [[5, 6], [7, 8]]⟩)]], rfl, ?_, ⟨_, _, _, rfl⟩, ?_⟩
    · intro j h h'
      match j, h with
      | 0, _ => rcases hk with rfl | rfl <;> exact .inr ⟨_, _, _, rfl, rfl, .inr ⟨_, _, _, rfl, rfl, rfl⟩⟩
      | 1, _ => rcases hk with rfl | rfl <;> exact .inr ⟨_, _, _, rfl, rfl, .inl ⟨rfl, rfl⟩⟩
    · rw [hd]
      refine ⟨by simp [Mat.Wf, full4], ⟨4, rfl, by decide, by decide, ht⟩, rfl, ?_⟩
      intro i ps hps
      match i, hps with
      | 0, hps => cases hps; exact ⟨by decide, _, ⟨4, rfl, by decide, rfl⟩, rfl⟩
      | 1, hps => cases hps; exact ⟨by decide, _, ⟨4, rfl, by decide, rfl⟩, rfl⟩
  refine ⟨rfl, by simp [stage4], ?_, ?_⟩
  · intro fs f h1 h2; cases h1; cases h2; rfl
  · intro p hp
    simp only [params4, List.mem_cons, List.not_mem_nil, or_false] at hp
    rcases hp with rfl | rfl | rfl
    · exact hw "w" (.inl rfl)
    · exact hw "v" (.inr rfl)
    · refine ⟨[[(1, ⟨1, [[9]]⟩)], [(6, ⟨1, [[9]]⟩)]], rfl, ?_, ⟨_, _, _, rfl⟩, ?_⟩
      · intro j h h'
        match j, h with
        | 0, _ => exact .inr ⟨_, _, _, rfl, rfl, .inl ⟨rfl, rfl⟩⟩
        | 1, _ => exact .inr ⟨_, _, _, rfl, rfl, .inl ⟨rfl, rfl⟩⟩
      · simp only [dims4, if_true]
        intro ps hps
        simp only [List.mem_cons, List.not_mem_nil, or_false] at hps
        rcases hps with rfl | rfl <;> exact ⟨by decide, rfl⟩

/-- The hypotheses of `C84_resharded` can be met. -/
example : ∃ outs : List (List (String × Mat Nat)), nativeLoad (dirOf [stage4]) ⟨1, 0, 4, 2⟩ dims4 = .ok outs.flatten ∧
    outs.length = 1 ∧ ∀ i (h : i < [params4].length) (h' : i < outs.length),
      LoadedFrom [params4][i] dims4 4 2 outs[i] :=
  C84_resharded [stage4] [params4] dims4 2 2 ⟨1, 0, 4, 2⟩ (by decide) (by decide) (by simp) rfl
    (fun i h h' => by
      have : i = 0 := by simp at h; omega
      subst this; exact stage4_of 4 (by decide)) (by decide) (by decide)

/-- What it gets: row 2 of `w`, and `n`. -/
example : nativeLoad (dirOf [stage4]) ⟨1, 0, 4, 2⟩ dims4 = .ok [("w", ⟨2, [[5, 6]]⟩), ("n", ⟨1, [[9]]⟩)] := rfl

/-- The hypotheses of `C84_same_sizes` can be met. -/
example : ∃ out, nativeLoad (dirOf [stage4]) ⟨1, 0, 2, 1⟩ dims4 = .ok out ∧ LoadedFrom params4 dims4 2 1 out :=
  C84_same_sizes [stage4] [params4] dims4 2 ⟨1, 0, 2, 1⟩ (by decide) rfl
    (fun i h h' => by
      have : i = 0 := by simp at h; omega
      subst this; exact stage4_of 2 (by decide)) (by
        intro t ht fs hfs fs' hfs'
        simp only [List.mem_cons, List.not_mem_nil, or_false] at ht
        subst ht
        simp only [stage4, List.mem_cons, List.not_mem_nil, or_false] at hfs hfs'
        rcases hfs with rfl | rfl <;> rcases hfs' with rfl | rfl <;> rfl)
    (by
      intro i h h' fs hfs
      have : i = 0 := by simp at h; omega
      subst this
      simp only [List.getElem_cons_zero, stage4, List.mem_cons, List.not_mem_nil, or_false] at hfs
      rcases hfs with rfl | rfl
      · refine ⟨id, fun a b h => h, ?_⟩
        intro q hq
        simp only [List.getElem_cons_zero, params4, List.mem_cons, List.not_mem_nil, or_false] at hq
        rcases hq with rfl | rfl | rfl <;> exact ⟨_, rfl⟩
      · refine ⟨(· + 5), fun a b h => by simpa using h, ?_⟩
        intro q hq
        simp only [List.getElem_cons_zero, params4, List.mem_cons, List.not_mem_nil, or_false] at hq
        rcases hq with rfl | rfl | rfl <;> exact ⟨_, rfl⟩) rfl (by decide) (by decide)

example : nativeLoad (dirOf [stage4]) ⟨1, 0, 2, 1⟩ dims4 =
    .ok [("w", ⟨2, [[5, 6], [7, 8]]⟩), ("n", ⟨1, [[9]]⟩)] := rfl

/-- The hypotheses of `C84_refused` can be met: the second stage has fewer tensor parallel directories. -/
example : nativeLoad (dirOf [stage4, stage4.take 1]) ⟨1, 0, 2, 1⟩ dims4 = .error .corrupt := by
  refine C84_refused _ _ _ ?_
  rintro ⟨tp, dp, htp, hdp, n, hn, ⟨hn1, hn2⟩, h⟩
  have e0 := (h 0 _ hn rfl).1
  have h1n : 1 < n := by
    rcases Nat.lt_or_ge 1 n with h | h
    · exact h
    · have : n = 1 := by omega
      subst this; exact absurd rfl (hn2 _)
  have e1 := (h 1 _ h1n rfl).1
  match tp, htp with
  | 1, _ => exact e0.2 _ rfl
  | tp + 2, _ => obtain ⟨b, hb⟩ := e1.1 1 (by omega); cases hb

example : nativeLoad (dirOf [[[[("a", (.other : Item Nat))]]]]) ⟨1, 0, 2, 1⟩ dims4 = .error .corrupt :=
  C84_not_tensor _ "a" _ _ rfl ⟨[], rfl⟩ (by decide) (by decide)

end Fs2.Props
