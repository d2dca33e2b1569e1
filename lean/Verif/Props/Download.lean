import Verif.Assets.Download

/-!
C68: downloads that are interrupted.

Specification. `Whole R r`: the result `r` is the file of the server, or, for an archive, all its members.
`Careful`: the runs for which the property holds, see `C68_complete_partial`.
-/

namespace Fs2.Props

open Fs2.Asset

/-- The members of an archive have different names. -/
def GoodRemote (R : Remote) : Prop :=
  ∀ ms, R.kind R.name R.data = .archive ms → (ms.map (·.1)).Nodup

/-- The files are those of the asset: the file that the server has, or all members of the archive that it has. -/
inductive WholeFiles (R : Remote) : Files → Prop
  | plain (h : R.kind R.name R.data = .plain) : WholeFiles R [(R.name, R.data)]
  | archive {ms fs} (h : R.kind R.name R.data = .archive ms) (hn : (fs.map (·.1)).Nodup)
      (hm : ∀ e, e ∈ fs ↔ e ∈ ms) : WholeFiles R fs

/-- A result that is not an error is the whole asset. -/
inductive Whole (R : Remote) : Result → Prop
  | error : Whole R .error
  | file {n b} (h : WholeFiles R [(n, b)]) : Whole R (.file n b)
  | dir {fs} (h : WholeFiles R fs) : Whole R (.dir fs)

/-- The phases in which a crash leaves a temporary file, or part of an asset without its download. -/
def Fragile : Phase → Prop
  | .cleanAsset | .writing _ _ | .received _ | .failing => True
  | _ => False

/-- A step that is not a crash in a fragile phase, not an exception while the cached asset is being removed, and
not the call with `local_only` while there is a download that has not been extracted. -/
def Careful (s : DState) (a : Act) : Prop :=
  (a = .crash → ¬ Fragile s.phase) ∧ (a = .fail → s.phase ≠ .cleanAsset) ∧
    ∀ force, a = .call force true → s.disk.download = none

/-- Steps all of which are careful. -/
inductive CarefulRun (R : Remote) : DState → List Act → DState → Prop
  | nil {s} : CarefulRun R s [] s
  | cons {s a s' as s''} (hc : Careful s a) (h : dstep R s a = some s') (t : CarefulRun R s' as s'') :
      CarefulRun R s (a :: as) s''

/-! ### Lemmas -/

private theorem mem_without {f : List Char} {fs : Files} {e : List Char × Bytes} :
    e ∈ without f fs ↔ e ∈ fs ∧ e.1 ≠ f := by
  simp [without]

private theorem mem_withFile {f : List Char} {b : Bytes} {fs : Files} {e : List Char × Bytes} :
    e ∈ withFile f b fs ↔ e ∈ fs ∧ e.1 ≠ f ∨ e = (f, b) := by
  simp [withFile, mem_without]

private theorem without_nodup {f : List Char} {fs : Files} (h : (fs.map (·.1)).Nodup) :
    ((without f fs).map (·.1)).Nodup :=
  (List.filter_sublist.map _).nodup h

private theorem withFile_nodup {f : List Char} {b : Bytes} {fs : Files} (h : (fs.map (·.1)).Nodup) :
    ((withFile f b fs).map (·.1)).Nodup := by
  rw [withFile, List.map_append, List.nodup_append]
  refine ⟨without_nodup h, by simp, ?_⟩
  intro a ha b' hb
  simp only [List.map_cons, List.map_nil, List.mem_singleton] at hb
  subst hb
  obtain ⟨e, he, rfl⟩ := List.mem_map.1 ha
  exact (mem_without.1 he).2

private theorem mem_of_fileOf {f : List Char} {b : Bytes} {fs : Files} (h : fileOf f fs = some b) :
    (f, b) ∈ fs := by
  induction fs with
  | nil => cases h
  | cons e fs ih =>
    obtain ⟨n, x⟩ := e
    rw [fileOf] at h
    split at h
    · rename_i hn; cases h; subst hn; simp
    · exact List.mem_cons_of_mem _ (ih h)

private theorem singleton_of {x : List Char × Bytes} {fs : Files} (hn : (fs.map (·.1)).Nodup) (hm : x ∈ fs)
    (h : ∀ e ∈ fs, e = x) : fs = [x] := by
  cases fs with
  | nil => cases hm
  | cons e fs =>
    have he := h e (by simp)
    subst he
    cases fs with
    | nil => rfl
    | cons e' fs =>
      have he' := h e' (by simp)
      subst he'
      simp at hn

/-- The files of the temporary directory are the file of the server. -/
private def TmpOk (R : Remote) (d : Disk) : Prop :=
  ∀ fs, d.tmp = some fs → (fs.map (·.1)).Nodup ∧ ∀ e ∈ fs, e = (R.name, R.data)

/-- The asset is absent, empty or whole. -/
private def Done (R : Remote) (d : Disk) : Prop :=
  ∀ fs, d.asset = some fs → fs = [] ∨ WholeFiles R fs

/-- What is there of the asset is going to be overwritten by the extraction. -/
private def Part (R : Remote) (d : Disk) : Prop :=
  ∀ fs, d.asset = some fs → (fs.map (·.1)).Nodup ∧
    ∀ e ∈ fs, ∃ ms, R.kind R.name R.data = .archive ms ∧ e.1 ∈ ms.map (·.1)

/-- The directory of the download has the file of the server in it, or the asset is done. -/
private def DownOk (R : Remote) (d : Disk) : Prop :=
  d.download = some [(R.name, R.data)] ∧ Part R d ∨ (d.download = none ∨ d.download = some []) ∧ Done R d

/-- What holds in the phases. -/
private def PhaseOk (R : Remote) (d : Disk) : Phase → Prop
  | .idle | .download | .extract => TmpOk R d ∧ DownOk R d
  | .cleanAsset => TmpOk R d ∧ DownOk R { d with asset := none }
  | .cleanDownload => TmpOk R d ∧ d.asset = none ∧ DownOk R d
  | .cleanTmp => TmpOk R d ∧ d.asset = none ∧ d.download = none
  | .opening => TmpOk R d ∧ d.asset = none ∧ d.download = none
  | .writing f n => d.asset = none ∧ d.download = none ∧ n ≤ R.data.length ∧ ∃ fs, d.tmp = some fs ∧
      (fs.map (·.1)).Nodup ∧ (f, R.data.take n) ∈ fs ∧ ∀ e ∈ fs, e.1 ≠ f → e = (R.name, R.data)
  | .received f => d.asset = none ∧ d.download = none ∧ ∃ fs, d.tmp = some fs ∧
      (fs.map (·.1)).Nodup ∧ (f, R.data) ∈ fs ∧ ∀ e ∈ fs, e.1 ≠ f → e = (R.name, R.data)
  | .renamed => d.asset = none ∧ d.download = none ∧ d.tmp = some [(R.name, R.data)]
  | .failing => d.asset = none ∧ d.download = none
  | .picking => TmpOk R d ∧ DownOk R d ∧ d.download.isSome ∧ d.asset.isSome
  | .extracting f todo => TmpOk R d ∧ d.download = some [(R.name, R.data)] ∧ f = R.name ∧
      ∃ ms done fs, R.kind R.name R.data = .archive ms ∧ ms = done ++ todo ∧ d.asset = some fs ∧
        (fs.map (·.1)).Nodup ∧ (∀ e ∈ done, e ∈ fs) ∧ ∀ e ∈ fs, e.1 ∈ ms.map (·.1)
  | .extracted f => TmpOk R d ∧ d.download = some [(R.name, R.data)] ∧ f = R.name ∧
      (∃ ms, R.kind R.name R.data = .archive ms) ∧ ∃ fs, d.asset = some fs ∧ WholeFiles R fs
  | .placing f => TmpOk R d ∧ d.download = some [(R.name, R.data)] ∧ f = R.name ∧
      R.kind R.name R.data = .plain ∧ d.asset = some []
  | .finishing => TmpOk R d ∧ DownOk R d ∧ Done R d
  | .retrieve => TmpOk R d ∧ DownOk R d ∧ Done R d

private theorem part_of_whole {R : Remote} {d : Disk} {ms : Files} (hk : R.kind R.name R.data = .archive ms)
    {fs : Files} (h : d.asset = some fs) (hw : WholeFiles R fs) : Part R d := by
  intro fs' h'
  rw [h] at h'
  cases h'
  cases hw with
  | plain hp => rw [hp] at hk; cases hk
  | archive hk' hn hm =>
    rw [hk] at hk'
    cases hk'
    exact ⟨hn, fun e he => ⟨ms, hk, List.mem_map_of_mem ((hm e).1 he)⟩⟩

private theorem done_none {R : Remote} {d : Disk} (h : d.asset = none) : Done R d := by
  intro fs hf
  rw [h] at hf
  cases hf

private theorem part_none {R : Remote} {d : Disk} (h : d.asset = none) : Part R d := by
  intro fs hf
  rw [h] at hf
  cases hf

/-- Removing a file from the directory of the download. -/
private theorem downOk_without {R : Remote} {d : Disk} (f : List Char) {fs : Files} (hd : d.download = some fs)
    (h : DownOk R d) (hdone : Done R d) : DownOk R { d with download := some (without f fs) } := by
  rcases h with ⟨h1, h2⟩ | ⟨h1 | h1, h2⟩
  · rw [hd] at h1
    cases h1
    by_cases hf : R.name = f
    · refine .inr ⟨.inr ?_, hdone⟩
      simp [without, hf]
    · refine .inl ⟨?_, h2⟩
      simp [without, hf]
  · rw [hd] at h1; cases h1
  · rw [hd] at h1
    cases h1
    exact .inr ⟨.inr rfl, h2⟩

private theorem busy_ok {R : Remote} (hg : GoodRemote R) (hlen : R.hasLength = true) {d d' : Disk} {p p' : Phase}
    {a : Act} (h : stepBusy R d p a = some (d', p')) (hp : PhaseOk R d p) : PhaseOk R d' p' := by
  cases p with
  | idle => cases h
  | failing => cases h
  | retrieve => cases h
  | cleanAsset =>
    obtain ⟨h1, h2⟩ := hp
    cases a <;> first | (simp [stepBusy, stepCleanAsset] at h; done) | skip
    · simp only [stepBusy, stepCleanAsset] at h
      split at h
      · cases h; exact ⟨h1, rfl, h2⟩
      · cases h
    · rename_i f
      simp only [stepBusy, stepCleanAsset] at h
      cases ha : d.asset with
      | none => rw [ha] at h; cases h
      | some fs => rw [ha] at h; cases h; exact ⟨h1, h2⟩
  | cleanDownload =>
    obtain ⟨h1, h2, h3⟩ := hp
    cases a <;> first | (simp [stepBusy, stepCleanDownload] at h; done) | skip
    · simp only [stepBusy, stepCleanDownload] at h
      split at h
      · cases h; exact ⟨h1, h2, rfl⟩
      · cases h
    · rename_i f
      simp only [stepBusy, stepCleanDownload] at h
      cases ha : d.download with
      | none => rw [ha] at h; cases h
      | some fs => rw [ha] at h; cases h; exact ⟨h1, h2, downOk_without f ha h3 (done_none h2)⟩
  | cleanTmp =>
    obtain ⟨h1, h2, h3⟩ := hp
    cases a <;> first | (simp [stepBusy, stepCleanTmp] at h; done) | skip
    · simp only [stepBusy, stepCleanTmp] at h
      split at h
      · cases h
        exact ⟨(nofun), .inr ⟨.inl h3, done_none h2⟩⟩
      · cases h
    · rename_i f
      simp only [stepBusy, stepCleanTmp] at h
      cases ha : d.tmp with
      | none => rw [ha] at h; cases h
      | some fs =>
        rw [ha] at h; cases h
        refine ⟨?_, h2, h3⟩
        rintro fs' ⟨⟩
        exact ⟨without_nodup (h1 fs ha).1, fun e he => (h1 fs ha).2 e (mem_without.1 he).1⟩
  | download =>
    obtain ⟨h1, h2⟩ := hp
    cases a <;> first | (simp [stepBusy, stepDownload] at h; done) | skip
    simp only [stepBusy, stepDownload] at h
    split at h
    · cases h; exact ⟨h1, h2⟩
    · rename_i ha
      split at h
      · cases h; exact ⟨h1, h2⟩
      · rename_i hd
        cases h
        refine ⟨?_, by simpa using ha, by simpa using hd⟩
        rintro fs ⟨⟩
        cases ht : d.tmp with
        | none => simp
        | some fs => exact h1 fs ht
  | opening =>
    obtain ⟨h1, h2, h3⟩ := hp
    cases a <;> first | (simp [stepBusy, stepOpening] at h; done) | skip
    · cases h
      exact ⟨h2, h3⟩
    · rename_i f
      simp only [stepBusy, stepOpening] at h
      cases ht : d.tmp with
      | none => rw [ht] at h; cases h
      | some fs =>
        rw [ht] at h
        simp only at h
        split at h
        · cases h
        · rename_i hf
          cases h
          obtain ⟨hn, hall⟩ := h1 fs ht
          refine ⟨h2, h3, Nat.zero_le _, _, rfl, ?_, by simp, ?_⟩
          · rw [List.map_append, List.nodup_append]
            refine ⟨hn, by simp, ?_⟩
            intro a ha b hb
            simp only [List.map_cons, List.map_nil, List.mem_singleton] at hb
            subst hb
            exact fun e => hf (e ▸ ha)
          · intro e he hne
            rcases List.mem_append.1 he with he | he
            · exact hall e he
            · rw [List.mem_singleton] at he
              subst he
              exact absurd rfl hne
  | writing f n =>
    obtain ⟨h2, h3, hle, fs, ht, hn, hf, hall⟩ := hp
    cases a <;> first | (simp [stepBusy, stepWriting] at h; done) | skip
    · cases h
      exact ⟨h2, h3⟩
    · simp only [stepBusy, stepWriting] at h
      split at h
      · cases h
        exact ⟨h2, h3⟩
      · rename_i hs
        cases h
        have : n = R.data.length := by
          simp only [hlen, true_and] at hs
          omega
        subst this
        rw [List.take_length] at hf
        exact ⟨h2, h3, fs, ht, hn, hf, hall⟩
    · rename_i m
      simp only [stepBusy, stepWriting] at h
      split at h
      · rename_i hm
        cases h
        refine ⟨h2, h3, hm.2, withFile f (R.data.take m) fs, by rw [ht]; rfl, withFile_nodup hn,
          mem_withFile.2 (.inr rfl), ?_⟩
        intro e he hne
        rcases mem_withFile.1 he with he | he
        · exact hall e he.1 hne
        · subst he; exact absurd rfl hne
      · cases h
  | received f =>
    obtain ⟨h2, h3, fs, ht, hn, hf, hall⟩ := hp
    cases a <;> first | (simp [stepBusy, stepReceived] at h; done) | skip
    · cases h
      exact ⟨h2, h3⟩
    · simp only [stepBusy, stepReceived, ht] at h
      cases hb : fileOf f fs with
      | none => rw [hb] at h; cases h
      | some b =>
        rw [hb] at h
        cases h
        have hbd : b = R.data := by
          have := mem_of_fileOf hb
          have key : ∀ fs : Files, (fs.map (·.1)).Nodup → (f, b) ∈ fs → (f, R.data) ∈ fs → b = R.data := by
            intro fs
            induction fs with
            | nil => intro _ h; cases h
            | cons e fs ih =>
              intro hn h1 h2
              have hn := List.nodup_cons.1 hn
              rcases List.mem_cons.1 h1 with e1 | m1 <;> rcases List.mem_cons.1 h2 with e2 | m2
              · rw [← e1] at e2; cases e2; rfl
              · subst e1; exact absurd (List.mem_map_of_mem (f := (·.1)) m2) hn.1
              · subst e2; exact absurd (List.mem_map_of_mem (f := (·.1)) m1) hn.1
              · exact ih hn.2 m1 m2
          exact key fs hn this hf
        subst hbd
        refine ⟨h2, h3, ?_⟩
        show some _ = some _
        congr 1
        refine singleton_of (withFile_nodup (without_nodup hn)) (mem_withFile.2 (.inr rfl)) ?_
        intro e he
        rcases mem_withFile.1 he with ⟨he, hne⟩ | he
        · have := mem_without.1 he
          exact hall e this.1 this.2
        · exact he
  | renamed =>
    obtain ⟨h2, h3, ht⟩ := hp
    cases a <;> first | (simp [stepBusy, stepRenamed] at h; done) | skip
    · cases h
      exact ⟨h2, h3⟩
    · cases h
      exact ⟨(nofun), .inl ⟨ht, part_none h2⟩⟩
  | extract =>
    obtain ⟨h1, h2⟩ := hp
    cases a <;> first | (simp [stepBusy, stepExtract] at h; done) | skip
    simp only [stepBusy, stepExtract] at h
    split at h
    · rename_i hd
      cases h
      refine ⟨h1, h2, ?_⟩
      rcases h2 with ⟨h2, _⟩ | ⟨_, h2⟩
      · rw [hd] at h2; cases h2
      · exact h2
    · rename_i hd
      cases h
      refine ⟨h1, ?_, by cases hx : d.download with
        | none => exact absurd hx hd
        | some _ => rfl, rfl⟩
      rcases h2 with ⟨h2, h3⟩ | ⟨h2, h3⟩
      · refine .inl ⟨h2, ?_⟩
        rintro fs ⟨⟩
        cases ha : d.asset with
        | none => simp
        | some fs => exact h3 fs ha
      · refine .inr ⟨h2, ?_⟩
        rintro fs ⟨⟩
        cases ha : d.asset with
        | none => exact .inl rfl
        | some fs => exact h3 fs ha
  | picking =>
    obtain ⟨h1, h2, h3, h4⟩ := hp
    obtain ⟨afs, ha⟩ := Option.isSome_iff_exists.1 h4
    cases a <;> first | (simp [stepBusy, stepPicking] at h; done) | skip
    · simp only [stepBusy, stepPicking] at h
      split at h
      · rename_i hd
        cases h
        refine ⟨h1, h2, ?_⟩
        rcases h2 with ⟨h2, _⟩ | ⟨_, h2⟩
        · rw [hd] at h2; cases h2
        · exact h2
      · cases h
    · rename_i f
      simp only [stepBusy, stepPicking] at h
      cases hb : d.download.bind (fileOf f) with
      | none => rw [hb] at h; cases h
      | some b =>
        rw [hb] at h
        obtain ⟨dfs, hd, hf⟩ := Option.bind_eq_some_iff.1 hb
        rcases h2 with ⟨h2, h5⟩ | ⟨h2 | h2, h5⟩
        · rw [hd] at h2
          cases h2
          have := mem_of_fileOf hf
          rw [List.mem_singleton] at this
          cases this
          simp only at h
          obtain ⟨hn, hall⟩ := h5 afs ha
          split at h
          · rename_i hk
            cases h
            refine ⟨h1, hd, rfl, hk, ?_⟩
            cases afs with
            | nil => exact ha
            | cons e afs =>
              obtain ⟨ms, hms, _⟩ := hall e (by simp)
              rw [hk] at hms
              cases hms
          · rename_i ms hk
            cases h
            refine ⟨h1, hd, rfl, ms, [], afs, hk, rfl, ha, hn, by simp, ?_⟩
            intro e he
            obtain ⟨ms', hms, hm⟩ := hall e he
            rw [hk] at hms
            cases hms
            exact hm
          · cases h
        · rw [hd] at h2; cases h2
        · rw [hd] at h2; cases h2; cases hf
  | extracting f todo =>
    obtain ⟨h1, hd, rfl, ms, dn, fs, hk, hms, ha, hn, hdone, hall⟩ := hp
    cases a <;> first | (simp [stepBusy, stepExtracting] at h; done) | skip
    · simp only [stepBusy, stepExtracting] at h
      cases todo with
      | nil =>
        cases h
        rw [List.append_nil] at hms
        subst hms
        refine ⟨h1, hd, rfl, ⟨ms, hk⟩, fs, ha, .archive hk hn ?_⟩
        intro e
        refine ⟨fun he => ?_, hdone e⟩
        obtain ⟨e', he', hee⟩ := List.mem_map.1 (hall e he)
        have h2 := hdone e' he'
        -- two entries with the same name
        have key : ∀ fs : Files, (fs.map (·.1)).Nodup → e ∈ fs → e' ∈ fs → e = e' := by
          intro fs
          induction fs with
          | nil => intro _ h; cases h
          | cons x fs ih =>
            intro hn h1 h2
            have hn := List.nodup_cons.1 hn
            rcases List.mem_cons.1 h1 with e1 | m1 <;> rcases List.mem_cons.1 h2 with e2 | m2
            · rw [e1, e2]
            · subst e1; exact absurd (List.mem_map.2 ⟨e', m2, hee⟩) hn.1
            · subst e2; exact absurd (List.mem_map.2 ⟨e, m1, hee.symm⟩) hn.1
            · exact ih hn.2 m1 m2
        rw [key fs hn he h2]
        exact he'
      | cons e todo =>
        obtain ⟨n, b⟩ := e
        cases h
        have hnd := hg ms hk
        have hnot : ∀ x ∈ dn, x.1 ≠ n := by
          intro x hx hxn
          rw [hms, List.map_append, List.nodup_append] at hnd
          exact hnd.2.2 x.1 (List.mem_map_of_mem hx) n (by simp) hxn
        refine ⟨h1, hd, rfl, ms, dn ++ [(n, b)], withFile n b fs, hk, by simp [hms], by simp [ha],
          withFile_nodup hn, ?_, ?_⟩
        · intro x hx
          rcases List.mem_append.1 hx with hx | hx
          · exact mem_withFile.2 (.inl ⟨hdone x hx, hnot x hx⟩)
          · exact mem_withFile.2 (.inr (List.mem_singleton.1 hx))
        · intro x hx
          rcases mem_withFile.1 hx with hx | rfl
          · exact hall x hx.1
          · rw [hms]; simp
    · rename_i k
      simp only [stepBusy, stepExtracting] at h
      cases todo with
      | nil => cases h
      | cons e todo =>
        obtain ⟨n, b⟩ := e
        cases h
        have hnd := hg ms hk
        have hnot : ∀ x ∈ dn, x.1 ≠ n := by
          intro x hx hxn
          rw [hms, List.map_append, List.nodup_append] at hnd
          exact hnd.2.2 x.1 (List.mem_map_of_mem hx) n (by simp) hxn
        refine ⟨h1, hd, rfl, ms, dn, withFile n (b.take k) fs, hk, hms, by simp [ha],
          withFile_nodup hn, ?_, ?_⟩
        · intro x hx
          exact mem_withFile.2 (.inl ⟨hdone x hx, hnot x hx⟩)
        · intro x hx
          rcases mem_withFile.1 hx with hx | rfl
          · exact hall x hx.1
          · rw [hms]; simp
  | extracted f =>
    obtain ⟨h1, hd, rfl, ⟨ms, hk⟩, fs, ha, hw⟩ := hp
    have hdone : Done R d := by
      intro fs' h'
      rw [ha] at h'
      cases h'
      exact .inr hw
    cases a <;> first | (simp [stepBusy, stepExtracted] at h; done) | skip
    · cases h
      exact ⟨h1, .inl ⟨hd, part_of_whole hk ha hw⟩, hdone⟩
    · cases h
      refine ⟨h1, .inr ⟨.inr ?_, hdone⟩, hdone⟩
      show d.download.map (without R.name) = some []
      rw [hd]
      simp [without]
  | placing f =>
    obtain ⟨h1, hd, rfl, hk, ha⟩ := hp
    cases a <;> first | (simp [stepBusy, stepPlacing] at h; done) | skip
    simp only [stepBusy, stepPlacing, hd, ha] at h
    have hf : fileOf R.name [(R.name, R.data)] = some R.data := by simp [fileOf]
    simp only [Option.bind_some, hf] at h
    cases h
    have hdone : Done R ⟨some (withFile R.name R.data []), some (without R.name [(R.name, R.data)]), d.tmp⟩ := by
      rintro fs ⟨⟩
      exact .inr (.plain hk)
    exact ⟨h1, .inr ⟨.inr (by simp [without]), hdone⟩, hdone⟩
  | finishing =>
    obtain ⟨h1, h2, h3⟩ := hp
    cases a <;> first | (simp [stepBusy, stepFinishing] at h; done) | skip
    · simp only [stepBusy, stepFinishing] at h
      split at h
      · cases h
        exact ⟨h1, .inr ⟨.inl rfl, h3⟩, h3⟩
      · cases h
    · rename_i f
      simp only [stepBusy, stepFinishing] at h
      cases hx : d.download with
      | none => rw [hx] at h; cases h
      | some fs => rw [hx] at h; cases h; exact ⟨h1, downOk_without f hx h2 h3, h3⟩

/-- Outside of the fragile phases the disk is always in a state from which a call can go on. -/
private theorem idle_of {R : Remote} {d : Disk} {p : Phase} (hp : PhaseOk R d p) (hf : ¬ Fragile p) :
    TmpOk R d ∧ DownOk R d := by
  cases p with
  | idle => exact hp
  | cleanAsset => exact absurd trivial hf
  | cleanDownload => exact ⟨hp.1, hp.2.2⟩
  | cleanTmp => exact ⟨hp.1, .inr ⟨.inl hp.2.2, done_none hp.2.1⟩⟩
  | download => exact hp
  | opening => exact ⟨hp.1, .inr ⟨.inl hp.2.2, done_none hp.2.1⟩⟩
  | writing => exact absurd trivial hf
  | received => exact absurd trivial hf
  | renamed =>
    obtain ⟨h2, h3, ht⟩ := hp
    refine ⟨?_, .inr ⟨.inl h3, done_none h2⟩⟩
    intro fs h
    rw [ht] at h
    cases h
    simp
  | failing => exact absurd trivial hf
  | extract => exact hp
  | picking => exact ⟨hp.1, hp.2.1⟩
  | extracting f todo =>
    obtain ⟨h1, hd, rfl, ms, dn, fs, hk, hms, ha, hn, hdone, hall⟩ := hp
    refine ⟨h1, .inl ⟨hd, ?_⟩⟩
    intro fs' h'
    rw [ha] at h'
    cases h'
    exact ⟨hn, fun e he => ⟨ms, hk, hall e he⟩⟩
  | extracted f =>
    obtain ⟨h1, hd, rfl, ⟨ms, hk⟩, fs, ha, hw⟩ := hp
    exact ⟨h1, .inl ⟨hd, part_of_whole hk ha hw⟩⟩
  | placing f =>
    obtain ⟨h1, hd, rfl, hk, ha⟩ := hp
    refine ⟨h1, .inl ⟨hd, ?_⟩⟩
    intro fs' h'
    rw [ha] at h'
    cases h'
    simp
  | finishing => exact ⟨hp.1, hp.2.1⟩
  | retrieve => exact ⟨hp.1, hp.2.1⟩

private theorem whole_of_done {R : Remote} {d : Disk} (h : Done R d) : Whole R (retrievePath d.asset) := by
  unfold retrievePath
  split
  · exact .error
  · exact .error
  · rename_i n b ha
    rcases h _ ha with h | h
    · cases h
    · exact .file h
  · rename_i fs hne hne' ha
    rcases h fs ha with h | h
    · exact absurd h (by rintro rfl; exact hne rfl)
    · exact .dir h

private theorem raises_idle {R : Remote} {d : Disk} {p : Phase} (h : p.raises = true) (hc : p ≠ .cleanAsset)
    (hp : PhaseOk R d p) : TmpOk R d ∧ DownOk R d := by
  refine idle_of hp fun hf => ?_
  cases p <;> first
    | exact absurd rfl hc
    | exact hf
    | (cases h; done)

private theorem step_ok {R : Remote} (hg : GoodRemote R) (hlen : R.hasLength = true) {s s' : DState} {a : Act}
    (hc : Careful s a) (h : dstep R s a = some s') (hp : PhaseOk R s.disk s.phase)
    (hr : ∀ r ∈ s.results, Whole R r) : PhaseOk R s'.disk s'.phase ∧ ∀ r ∈ s'.results, Whole R r := by
  have herr : ∀ r ∈ s.results ++ [.error], Whole R r := by
    intro r hm
    rcases List.mem_append.1 hm with hm | hm
    · exact hr r hm
    · rw [List.mem_singleton.1 hm]; exact .error
  obtain ⟨d, p, rs⟩ := s
  unfold dstep at h
  split at h
  · rename_i force localOnly hp'
    cases h
    have hp' : p = .idle := hp'
    subst hp'
    refine ⟨?_, hr⟩
    cases localOnly with
    | true =>
      have hd := hc.2.2 force rfl
      refine ⟨hp.1, hp.2, ?_⟩
      rcases hp.2 with ⟨h, _⟩ | ⟨_, h⟩
      · rw [hd] at h; cases h
      · exact h
    | false =>
      cases force with
      | false => exact hp
      | true =>
        refine ⟨hp.1, ?_⟩
        rcases hp.2 with ⟨h1, h2⟩ | ⟨h1, h2⟩
        · exact .inl ⟨h1, part_none rfl⟩
        · exact .inr ⟨h1, done_none rfl⟩
  · cases h
  · cases h
    exact ⟨idle_of hp (hc.1 rfl), hr⟩
  · rename_i hp'
    cases h
    have hp' : p = .retrieve := hp'
    subst hp'
    refine ⟨⟨hp.1, hp.2.1⟩, ?_⟩
    intro r hm
    rcases List.mem_append.1 hm with hm | hm
    · exact hr r hm
    · rw [List.mem_singleton.1 hm]; exact whole_of_done hp.2.2
  · rename_i f hp'
    have hp' : p = .failing := hp'
    subst hp'
    cases ht : d.tmp with
    | none => simp only [ht] at h; cases h
    | some fs => simp only [ht] at h; cases h; exact ⟨hp, hr⟩
  · rename_i hp'
    have hp' : p = .failing := hp'
    subst hp'
    split at h
    · cases h
      exact ⟨⟨(nofun), .inr ⟨.inl hp.2, done_none hp.1⟩⟩, herr⟩
    · cases h
  · split at h
    · rename_i d' p' hb
      cases h
      exact ⟨busy_ok hg hlen hb hp, hr⟩
    · split at h
      · rename_i hf
        cases h
        exact ⟨raises_idle hf.2 (hc.2.1 hf.1) hp, herr⟩
      · cases h

private theorem run_ok {R : Remote} (hg : GoodRemote R) (hlen : R.hasLength = true) {s s' : DState}
    {as : List Act} (h : CarefulRun R s as s') (hp : PhaseOk R s.disk s.phase)
    (hr : ∀ r ∈ s.results, Whole R r) : ∀ r ∈ s'.results, Whole R r := by
  induction h with
  | nil => exact hr
  | cons hc h _ ih =>
    obtain ⟨h1, h2⟩ := step_ok hg hlen hc h hp hr
    exact ih h1 h2

/-- The states of one forced call. -/
private def Forced (R : Remote) (s : DState) : Prop :=
  match s.phase with
  | .idle => ∃ r, s.results = [r] ∧ Whole R r
  | .cleanAsset => s.results = []
  | .cleanDownload => s.results = [] ∧ s.disk.asset = none
  | .cleanTmp => s.results = [] ∧ s.disk.asset = none ∧ s.disk.download = none
  | p => s.results = [] ∧ PhaseOk R s.disk p

private theorem forced_of_ok {R : Remote} {d : Disk} {p : Phase} (hi : p ≠ .idle) (h : PhaseOk R d p) :
    Forced R ⟨d, p, []⟩ := by
  cases p <;> first
    | exact absurd rfl hi
    | exact ⟨rfl, h⟩
    | exact rfl
    | exact ⟨rfl, h.2.1⟩
    | exact ⟨rfl, h.2⟩

private theorem busy_not_idle {R : Remote} {d d' : Disk} {p p' : Phase} {a : Act}
    (h : stepBusy R d p a = some (d', p')) : p' ≠ .idle := by
  rintro rfl
  cases p <;> cases a <;>
    simp [stepBusy, stepCleanAsset, stepCleanDownload, stepCleanTmp, stepDownload, stepOpening, stepWriting,
      stepReceived, stepRenamed, stepExtract, stepPicking, stepExtracting, stepExtracted, stepPlacing,
      stepFinishing] at h
  all_goals first
    | (split at h <;> simp at h; done)
    | (split at h <;> (try simp at h) <;> split at h <;> simp at h; done)
    | (split at h <;> (try simp at h) <;> split at h <;> (try simp at h) <;> split at h <;> simp at h; done)

private theorem forced_step {R : Remote} (hg : GoodRemote R) (hlen : R.hasLength = true) {s s' : DState}
    {a : Act} (ha : a ≠ .crash) (hcall : ∀ f l, a ≠ .call f l) (h : dstep R s a = some s')
    (hp : Forced R s) : Forced R s' := by
  obtain ⟨d, p, rs⟩ := s
  have hbusy : ∀ d' p', stepBusy R d p a = some (d', p') → p ≠ .idle → Forced R ⟨d', p', rs⟩ := by
    intro d' p' hb hi
    cases p with
    | idle => exact absurd rfl hi
    | cleanAsset =>
      have hrs : rs = [] := hp
      subst hrs
      cases a <;> first | (simp [stepBusy, stepCleanAsset] at hb; done) | skip
      · simp only [stepBusy, stepCleanAsset] at hb
        split at hb
        · cases hb; exact ⟨rfl, rfl⟩
        · cases hb
      · simp only [stepBusy, stepCleanAsset] at hb
        cases hx : d.asset with
        | none => rw [hx] at hb; cases hb
        | some fs => rw [hx] at hb; cases hb; exact rfl
    | cleanDownload =>
      obtain ⟨hrs, h1⟩ := hp
      have hrs : rs = [] := hrs
      subst hrs
      cases a <;> first | (simp [stepBusy, stepCleanDownload] at hb; done) | skip
      · simp only [stepBusy, stepCleanDownload] at hb
        split at hb
        · cases hb; exact ⟨rfl, h1, rfl⟩
        · cases hb
      · simp only [stepBusy, stepCleanDownload] at hb
        cases hx : d.download with
        | none => rw [hx] at hb; cases hb
        | some fs => rw [hx] at hb; cases hb; exact ⟨rfl, h1⟩
    | cleanTmp =>
      obtain ⟨hrs, h1, h2⟩ := hp
      have hrs : rs = [] := hrs
      subst hrs
      cases a <;> first | (simp [stepBusy, stepCleanTmp] at hb; done) | skip
      · simp only [stepBusy, stepCleanTmp] at hb
        split at hb
        · cases hb
          exact ⟨rfl, (nofun), .inr ⟨.inl h2, done_none h1⟩⟩
        · cases hb
      · simp only [stepBusy, stepCleanTmp] at hb
        cases hx : d.tmp with
        | none => rw [hx] at hb; cases hb
        | some fs => rw [hx] at hb; cases hb; exact ⟨rfl, h1, h2⟩
    | _ =>
      obtain ⟨hrs, h1⟩ := hp
      have hrs : rs = [] := hrs
      subst hrs
      exact forced_of_ok (busy_not_idle hb) (busy_ok hg hlen hb h1)
  have hrs : p ≠ .idle → rs = [] := by
    intro hi
    cases p <;> first
      | exact absurd rfl hi
      | exact hp.1
      | exact hp
  unfold dstep at h
  split at h
  · exact absurd rfl (hcall _ _)
  · cases h
  · exact absurd rfl ha
  · rename_i hp'
    cases h
    have hp' : p = .retrieve := hp'
    subst hp'
    have hr := hrs (by decide)
    subst hr
    exact ⟨_, rfl, whole_of_done hp.2.2.2⟩
  · rename_i f hp'
    have hp' : p = .failing := hp'
    subst hp'
    cases ht : d.tmp with
    | none => simp only [ht] at h; cases h
    | some fs => simp only [ht] at h; cases h; exact hp
  · rename_i hp'
    have hp' : p = .failing := hp'
    subst hp'
    split at h
    · cases h
      have hr := hrs (by decide)
      subst hr
      exact ⟨_, rfl, .error⟩
    · cases h
  · rename_i h1 h2 h3 h4 h5
    have hi : p ≠ .idle := by
      rintro rfl
      first | exact h1 rfl | exact h2 rfl | exact h3 rfl | exact h4 rfl | exact h5 rfl
    split at h
    · rename_i d' p' hb
      cases h
      exact hbusy d' p' hb hi
    · split at h
      · cases h
        have hr := hrs hi
        subst hr
        exact ⟨_, rfl, .error⟩
      · cases h

/-! ### The properties -/

/-- After any number of calls, crashes and exceptions, every call returns the whole asset or an error, provided
that the server tells the length of the file, that no crash happens while the temporary file is being written
or has not got its name yet, or while a failed download is being removed, that neither a crash nor an exception
happens while a forced call removes the cached asset, and that `local_only` is not used while there is a
download that has not been extracted. -/
theorem C68_complete_partial {R : Remote} (hg : GoodRemote R) (hlen : R.hasLength = true) {as : List Act}
    {s : DState} (h : CarefulRun R freshDisk as s) : ∀ r ∈ s.results, Whole R r :=
  run_ok hg hlen h ⟨(nofun), .inr ⟨.inl rfl, (nofun)⟩⟩ (nofun)

/-- Whatever earlier calls and crashes have left on the disk, a forced call that does not crash returns the
whole asset or an error, provided that the server tells the length of the file. -/
theorem C68_force {R : Remote} (hg : GoodRemote R) (hlen : R.hasLength = true) (d : Disk) {as : List Act}
    (hc : .crash ∉ as) (hn : ∀ f l, .call f l ∉ as) {s : DState}
    (h : dsteps R ⟨d, .idle, []⟩ (.call true false :: as) = some s) : ∀ r ∈ s.results, Whole R r := by
  have key : ∀ (as : List Act) (s s' : DState), .crash ∉ as → (∀ f l, .call f l ∉ as) → Forced R s →
      dsteps R s as = some s' → Forced R s' := by
    intro as
    induction as with
    | nil => intro s s' _ _ hf h; cases h; exact hf
    | cons a as ih =>
      intro s s' hc hn hf h
      rw [dsteps] at h
      cases hs : dstep R s a with
      | none => rw [hs] at h; cases h
      | some s1 =>
        rw [hs] at h
        exact ih s1 s' (fun hm => hc (List.mem_cons_of_mem _ hm)) (fun f l hm => hn f l (List.mem_cons_of_mem _ hm))
          (forced_step hg hlen (fun e => hc (by simp [e])) (fun f l e => hn f l (by simp [e])) hs hf) h
  have hf := key as ⟨d, .cleanAsset, []⟩ s hc hn rfl h
  obtain ⟨d', p, rs⟩ := s
  intro r hr
  cases p with
  | idle =>
    obtain ⟨r', h1, h2⟩ := hf
    have h1 : rs = [r'] := h1
    subst h1
    rw [List.mem_singleton.1 hr]
    exact h2
  | cleanAsset =>
    have : rs = [] := hf
    subst this
    cases hr
  | _ =>
    have : rs = [] := hf.1
    subst this
    cases hr

/-! ### Examples -/

/-- A file of three bytes. -/
private def onePlain : Remote := ⟨['m'], [1, 2, 3], true, fun _ _ => .plain⟩

/-- An archive with two members. -/
private def oneArchive : Remote :=
  ⟨['z'], [9, 9], true, fun n b => if n = ['z'] ∧ b = [9, 9] then .archive [(['a'], [1, 2]), (['b'], [3])] else .plain⟩

private theorem onePlain_good : GoodRemote onePlain := fun _ h => nomatch h

private theorem oneArchive_good : GoodRemote oneArchive := by
  intro ms h
  have h : Kind.archive [(['a'], [1, 2]), (['b'], [3])] = .archive ms := h
  cases h
  decide

private theorem carefulRun_of {R : Remote} : ∀ (as : List Act) (s s' : DState), dsteps R s as = some s' →
    .crash ∉ as → .fail ∉ as → (∀ f, .call f true ∉ as) → CarefulRun R s as s' := by
  intro as
  induction as with
  | nil => intro s s' h _ _ _; cases h; exact .nil
  | cons a as ih =>
    intro s s' h h1 h2 h3
    rw [dsteps] at h
    cases hs : dstep R s a with
    | none => rw [hs] at h; cases h
    | some s1 =>
      rw [hs] at h
      refine .cons ⟨fun e => absurd (by simp [e]) h1, fun e => absurd (by simp [e]) h2,
        fun f e => absurd (by simp [e]) (h3 f)⟩ hs ?_
      exact ih s1 s' h (fun hm => h1 (List.mem_cons_of_mem _ hm)) (fun hm => h2 (List.mem_cons_of_mem _ hm))
        fun f hm => h3 f (List.mem_cons_of_mem _ hm)

/-- A crash in the middle of the extraction; the next call extracts everything again. -/
private def crashInExtraction : List Act :=
  [.call false false, .next, .temp ['t'], .recv 2, .next, .next, .next, .next, .pick ['z'], .part 1, .crash]

private theorem crashInExtraction_run : ∃ s, CarefulRun oneArchive freshDisk
    (crashInExtraction ++ [.call false false, .next, .next, .pick ['z'], .next, .next, .next, .next, .next, .next]) s ∧
    s.results = [.dir [(['a'], [1, 2]), (['b'], [3])]] := by
  have key : ∀ (as : List Act) (s s' : DState), (∀ f, .call f true ∉ as) →
      (∀ pre post, as = pre ++ .crash :: post → ∀ t, dsteps oneArchive s pre = some t → ¬ Fragile t.phase) →
      .fail ∉ as → dsteps oneArchive s as = some s' → CarefulRun oneArchive s as s' := by
    intro as
    induction as with
    | nil => intro s s' _ _ _ h; cases h; exact .nil
    | cons a as ih =>
      intro s s' h1 h2 h3 h
      rw [dsteps] at h
      cases hs : dstep oneArchive s a with
      | none => rw [hs] at h; cases h
      | some s1 =>
        rw [hs] at h
        refine .cons ⟨fun e => h2 [] as (by rw [e]; rfl) s rfl, fun e => absurd (by simp [e]) h3,
          fun f e => absurd (by simp [e]) (h1 f)⟩ hs ?_
        refine ih s1 s' (fun f hm => h1 f (List.mem_cons_of_mem _ hm)) ?_
          (fun hm => h3 (List.mem_cons_of_mem _ hm)) h
        intro pre post e t ht
        exact h2 (a :: pre) post (by rw [e]; rfl) t (by rw [dsteps, hs]; exact ht)
  refine ⟨_, key _ _ _ ?_ ?_ ?_ (by rfl), by rfl⟩
  · intro f
    cases f <;> decide
  · intro pre post e t ht
    have hpre : pre = crashInExtraction.dropLast := by
      have hl : ∀ (l pre post : List Act), .crash ∉ l → ∀ r, .crash ∉ r → l ++ .crash :: r = pre ++ .crash :: post →
          pre = l := by
        intro l
        induction l with
        | nil =>
          intro pre post _ r hr e
          cases pre with
          | nil => rfl
          | cons x pre =>
            cases e
            exact absurd (by simp) hr
        | cons x l ih =>
          intro pre post hl r hr e
          cases pre with
          | nil => cases e; exact absurd (by simp) hl
          | cons y pre =>
            obtain ⟨rfl, et⟩ := List.cons.inj e
            rw [ih pre post (fun h => hl (List.mem_cons_of_mem _ h)) r hr et]
      exact hl crashInExtraction.dropLast pre post (by decide)
        [.call false false, .next, .next, .pick ['z'], .next, .next, .next, .next, .next, .next] (by decide) e
    subst hpre
    have : dsteps oneArchive freshDisk crashInExtraction.dropLast = some ⟨⟨some [(['a'], [1])],
      some [(['z'], [9, 9])], none⟩, .extracting ['z'] [(['a'], [1, 2]), (['b'], [3])], []⟩ := by rfl
    rw [this] at ht
    cases ht
    exact fun h => h
  · decide

example : ∃ s, CarefulRun oneArchive freshDisk
    (crashInExtraction ++ [.call false false, .next, .next, .pick ['z'], .next, .next, .next, .next, .next, .next]) s ∧
    Whole oneArchive (.dir [(['a'], [1, 2]), (['b'], [3])]) := by
  obtain ⟨s, h, hr⟩ := crashInExtraction_run
  exact ⟨s, h, C68_complete_partial oneArchive_good rfl h _ (by rw [hr]; simp)⟩

/-- A forced call that finds partial files everywhere. -/
example : ∀ r ∈ [Result.file ['m'] [1, 2, 3]], Whole onePlain r :=
  C68_force onePlain_good rfl ⟨some [(['x'], [])], some [(['y'], [])], some [(['t'], [1])]⟩
    (as := [.remove ['x'], .next, .remove ['y'], .next, .remove ['t'], .next, .next, .temp ['t'], .recv 1, .recv 3,
      .next, .next, .next, .next, .pick ['m'], .next, .next, .next])
    (by decide) (by intro f l; cases f <;> cases l <;> decide)
    (s := ⟨⟨some [(['m'], [1, 2, 3])], none, none⟩, .idle, [.file ['m'] [1, 2, 3]]⟩) (by rfl)

/-! ### Disagreements -/

/-- A crash while the file is being received leaves part of it in a temporary file; the next call, which
receives the whole file, may take the old temporary file for the asset, and throws the whole file away. -/
theorem C68_stale_temporary_file :
    ∃ (R : Remote) (as : List Act) (s : DState), GoodRemote R ∧ R.hasLength = true ∧
      as.count .crash = 1 ∧ .fail ∉ as ∧ (∀ f l, .call f l ∈ as → f = false ∧ l = false) ∧
      dsteps R freshDisk as = some s ∧ s.results = [.file ['t'] [1]] ∧ ¬ Whole R (.file ['t'] [1]) ∧
      s.disk = ⟨some [(['t'], [1])], none, none⟩ := by
  refine ⟨onePlain, [.call false false, .next, .temp ['t'], .recv 1, .crash, .call false false, .next, .temp ['u'],
    .recv 3, .next, .next, .next, .next, .pick ['t'], .next, .remove ['m'], .next, .next], _, onePlain_good, rfl,
    by decide, by decide, ?_, by rfl, by rfl, ?_, by rfl⟩
  · intro f l h
    cases f <;> cases l <;> first | exact ⟨rfl, rfl⟩ | exact absurd h (by decide)
  · intro h
    cases h with
    | file h =>
      cases h with
      | archive h _ _ => cases h

/-- A crash in the middle of the extraction, and a call with `local_only` returns part of the asset. -/
theorem C68_local_only :
    ∃ (R : Remote) (as : List Act) (s : DState), GoodRemote R ∧ R.hasLength = true ∧
      dsteps R freshDisk (as ++ [.crash, .call false true, .next]) = some s ∧
      s.results = [.file ['a'] [1]] ∧ ¬ Whole R (.file ['a'] [1]) := by
  refine ⟨oneArchive, crashInExtraction.dropLast, _, oneArchive_good, rfl, by rfl, by rfl, ?_⟩
  intro h
  cases h with
  | file h =>
    cases h with
    | archive h _ hm =>
      have h : Kind.archive [(['a'], [1, 2]), (['b'], [3])] = .archive _ := h
      cases h
      have := (hm (['b'], [3])).2 (by decide)
      exact absurd this (by decide)

/-- A crash while a forced call removes an asset of several files, and every later call that is not forced
returns what is left of it. -/
theorem C68_forced_call :
    ∃ (R : Remote) (as : List Act) (s : DState), GoodRemote R ∧ R.hasLength = true ∧
      dsteps R freshDisk (as ++ [.call true false, .remove ['a'], .crash, .call false false, .next, .next, .next]) =
        some s ∧
      s.results = [.dir [(['a'], [1, 2]), (['b'], [3])], .file ['b'] [3]] ∧ ¬ Whole R (.file ['b'] [3]) := by
  refine ⟨oneArchive, [.call false false, .next, .temp ['t'], .recv 2, .next, .next, .next, .next, .pick ['z'], .next,
    .next, .next, .next, .next, .next], _, oneArchive_good, rfl, by rfl, by rfl, ?_⟩
  intro h
  cases h with
  | file h =>
    cases h with
    | archive h _ hm =>
      have h : Kind.archive [(['a'], [1, 2]), (['b'], [3])] = .archive _ := h
      cases h
      have := (hm (['a'], [1, 2])).2 (by decide)
      exact absurd this (by decide)

/-- If the server does not tell the length, a connection that ends early gives part of the file, without any
crash. -/
theorem C68_unknown_length :
    ∃ (R : Remote) (as : List Act) (s : DState), GoodRemote R ∧ .crash ∉ as ∧ .fail ∉ as ∧
      dsteps R freshDisk as = some s ∧ s.results = [.file ['m'] [1]] ∧ ¬ Whole R (.file ['m'] [1]) := by
  refine ⟨{ onePlain with hasLength := false }, [.call false false, .next, .temp ['t'], .recv 1, .next, .next, .next,
    .next, .pick ['m'], .next, .next, .next], _, fun _ h => (nomatch h), by decide, by decide, by rfl, by rfl, ?_⟩
  intro h
  cases h with
  | file h =>
    cases h with
    | archive h _ _ => cases h

end Fs2.Props
