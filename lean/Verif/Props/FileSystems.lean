import Verif.Runtime.FileSystems

/-!
# C128: which object a path means

A path with the scheme of a registered protocol means the object of this protocol that the rest names, whether it is a string or a
`Path` (which turns `://` into `:/`); any other path means the local file of this name.
-/

namespace Fs2.Props

open Fs2.Files

/-- A scheme: not empty, without colons and slashes. -/
def ProperScheme (s : List Char) : Prop := s ≠ [] ∧ ':' ∉ s ∧ '/' ∉ s

/-- No slash comes directly after a slash. -/
def NoDouble (s : List Char) : Prop := ∀ a b, s ≠ a ++ '/' :: '/' :: b

/-- The name of an object: no slash at the beginning, and no empty part. -/
def ProperKey (k : List Char) : Prop := k.head? ≠ some '/' ∧ NoDouble k

/-- The text `scheme://key`. -/
def remoteText (scheme key : List Char) : List Char := scheme ++ "://".toList ++ key

/-- The text `scheme:/key`, which `Path` makes of it. -/
def pathText (scheme key : List Char) : List Char := scheme ++ ":/".toList ++ key

theorem noDouble_tail {c : Char} {s : List Char} (h : NoDouble (c :: s)) : NoDouble s := by
  intro a b he
  exact h (c :: a) b (by rw [he]; rfl)

theorem pathStr_noDouble {s : List Char} (h : NoDouble s) : pathStr s = s := by
  induction s with
  | nil => rfl
  | cons c s ih =>
    have ih := ih (noDouble_tail h)
    cases s with
    | nil => simp [pathStr]
    | cons d t =>
      by_cases hcd : c = '/' ∧ d = '/'
      · obtain ⟨rfl, rfl⟩ := hcd
        exact absurd rfl (h [] t)
      · rw [pathStr, ih]
        intro u hu hv
        injection hv with hv _
        exact hcd ⟨hu, hv⟩

theorem pathStr_append {s t : List Char} (h : '/' ∉ s) : pathStr (s ++ t) = s ++ pathStr t := by
  induction s with
  | nil => rfl
  | cons c s ih =>
    have hc : c ≠ '/' := by rintro rfl; simp at h
    have ih := ih (by intro h'; exact h (by simp [h']))
    rw [List.cons_append, pathStr, ih, List.cons_append]
    intro u hu _
    exact hc hu

theorem noDouble_slash {k : List Char} (h : ProperKey k) : NoDouble ('/' :: k) := by
  intro a b he
  cases a with
  | nil =>
    injection he with _ he
    exact h.1 (by rw [he]; rfl)
  | cons c a =>
    injection he with _ he
    exact h.2 a b he

/-- `Path` of a remote text. -/
theorem pathStr_remote {s k : List Char} (hs : ProperScheme s) (hk : ProperKey k) : pathStr (remoteText s k) = pathText s k := by
  have h1 : remoteText s k = (s ++ [':']) ++ '/' :: '/' :: k := by simp [remoteText]
  have h2 : pathText s k = (s ++ [':']) ++ '/' :: k := by simp [pathText]
  rw [h1, pathStr_append (by simp [hs.2.2]), h2, pathStr, pathStr_noDouble (noDouble_slash hk)]

theorem isPrefixOf_append (a b : List Char) : a.isPrefixOf (a ++ b) = true := by
  rw [List.isPrefixOf_iff_prefix]; exact List.prefix_append a b

/-- A path text has the prefix with one slash, but not the one with two. -/
theorem not_prefix_pathText {s k : List Char} (hk : k.head? ≠ some '/') : (prefixOf s).isPrefixOf (pathText s k) = false := by
  rw [Bool.eq_false_iff]
  intro h
  rw [List.isPrefixOf_iff_prefix] at h
  obtain ⟨t, ht⟩ := h
  have : '/' :: t = k := by simpa [prefixOf, pathText] using ht
  exact hk (by rw [← this]; rfl)

theorem normalize_pathText {s k : List Char} (hk : k.head? ≠ some '/') : normalize (some s) (pathText s k) = remoteText s k := by
  have h1 : (s ++ [':', '/']).isPrefixOf (pathText s k) = true := by
    simp [pathText]
  have h2 : (pathText s k).drop (s.length + 2) = k := by
    have : (pathText s k) = (s ++ [':', '/']) ++ k := by simp [pathText]
    rw [this]
    exact List.drop_left' (by simp)
  simp only [normalize, h1, not_prefix_pathText hk, Bool.not_false, Bool.and_true, if_true, h2]
  simp [prefixOf, remoteText]

theorem normalize_remote (s k : List Char) : normalize (some s) (remoteText s k) = remoteText s k := by
  have h1 : (prefixOf s).isPrefixOf (remoteText s k) = true := by
    simp [prefixOf, remoteText]
  simp [normalize, h1]

theorem short_remote (s k : List Char) : (prefixOf s).isPrefixOf (remoteText s k) = true ∧
    (remoteText s k).drop (prefixOf s).length = k := by
  have h : remoteText s k = prefixOf s ++ k := by simp [prefixOf, remoteText]
  rw [h]
  exact ⟨isPrefixOf_append _ _, List.drop_left⟩

theorem dropWhile_key {k : List Char} (h : k.head? ≠ some '/') : k.dropWhile (· = '/') = k := by
  cases k with
  | nil => rfl
  | cons c k =>
    have : c ≠ '/' := by rintro rfl; simp at h
    simp [this]

/-- Only its own scheme matches a text. -/
theorem matches_iff {r s k : List Char} (hr : ProperScheme r) (hs : ProperScheme s) :
    matchesProtocol r (s ++ ':' :: '/' :: k) = true ↔ r = s := by
  constructor
  · intro h
    have hp : (r ++ [':', '/']) <+: (s ++ ':' :: '/' :: k) := by
      simp only [matchesProtocol, Bool.or_eq_true, Bool.and_eq_true] at h
      rcases h with h | h
      · rw [List.isPrefixOf_iff_prefix] at h
        obtain ⟨t, ht⟩ := h
        exact ⟨'/' :: t, by rw [← ht]; simp [prefixOf]⟩
      · exact List.isPrefixOf_iff_prefix.1 h.1
    obtain ⟨t, ht⟩ := hp
    have key : ∀ x y : List Char, ':' ∉ x → (x ++ ':' :: y).takeWhile (· ≠ ':') = x := by
      intro x y hx
      induction x with
      | nil => simp
      | cons c x ih =>
        have hc : c ≠ ':' := by rintro rfl; simp at hx
        have := ih (by intro h'; exact hx (by simp [h']))
        simp [hc] at this ⊢
        exact this
    have e : r ++ ':' :: ('/' :: t) = s ++ ':' :: ('/' :: k) := by rw [← ht]; simp
    have := congrArg (List.takeWhile (· ≠ ':')) e
    rwa [key _ _ hr.2.1, key _ _ hs.2.1] at this
  · rintro rfl
    have h1 : (r ++ [':', '/']).isPrefixOf (r ++ ':' :: '/' :: k) = true := by
      simp
    cases h2 : (prefixOf r).isPrefixOf (r ++ ':' :: '/' :: k) <;> simp [matchesProtocol, h1, h2]

theorem resolve_remote {regs : List (List Char)} {s k : List Char} (hreg : ∀ r ∈ regs, ProperScheme r) (hs : s ∈ regs) :
    resolve regs (s ++ ':' :: '/' :: k) = some s := by
  unfold resolve
  induction regs with
  | nil => cases hs
  | cons r regs ih =>
    have hps : ProperScheme s := hreg s hs
    rw [List.find?_cons]
    by_cases h : r = s
    · rw [(matches_iff (hreg r (by simp)) hps).2 h, h]
    · have hm : matchesProtocol r (s ++ ':' :: '/' :: k) = false := by
        rw [Bool.eq_false_iff]
        intro hm
        exact h ((matches_iff (hreg r (by simp)) hps).1 hm)
      rw [hm]
      refine ih (fun r hr => hreg r (by simp [hr])) ?_
      rcases List.mem_cons.1 hs with hs | hs
      · exact absurd hs.symm h
      · exact hs

theorem opened_pathText {regs : List (List Char)} (hreg : ∀ r ∈ regs, ProperScheme r) {s k : List Char} (hs : s ∈ regs)
    (hk : k.head? ≠ some '/') : Fs2.Files.opened regs (pathText s k) = some (some s, k) := by
  have e2 : pathText s k = s ++ ':' :: '/' :: k := by simp [pathText]
  have r2 : resolve regs (pathText s k) = some s := by rw [e2]; exact resolve_remote hreg hs
  have hsr := short_remote s k
  simp [Fs2.Files.opened, r2, shortUri, normalize_pathText hk, hsr.1, hsr.2, dropWhile_key hk]

theorem longUri_key {s k : List Char} (h2 : ¬ pathText s [] <+: k) : longUri (some s) k = remoteText s k := by
  have n1 : (s ++ [':', '/']).isPrefixOf k = false := by
    rw [Bool.eq_false_iff, Ne, List.isPrefixOf_iff_prefix]
    simpa [pathText] using h2
  have n2 : (prefixOf s).isPrefixOf k = false := by
    rw [Bool.eq_false_iff, Ne, List.isPrefixOf_iff_prefix]
    rintro ⟨t, ht⟩
    exact h2 ⟨'/' :: t, by rw [← ht]; simp [pathText, prefixOf]⟩
  have hn : normalize (some s) k = k := by simp [normalize, n1]
  simp only [longUri, hn, n2]
  simp [prefixOf, remoteText]

theorem pathStr_append_proper {x t : List Char} (h : NoDouble x) (hl : x.getLast? ≠ some '/') : pathStr (x ++ t) = x ++ pathStr t := by
  induction x with
  | nil => rfl
  | cons c x ih =>
    cases x with
    | nil =>
      have hc : c ≠ '/' := by rintro rfl; simp at hl
      exact pathStr_append (s := [c]) (by simp [hc.symm])
    | cons d y =>
      have ih := ih (noDouble_tail h) (by simpa using hl)
      have hcd : ¬ (c = '/' ∧ d = '/') := by
        rintro ⟨rfl, rfl⟩
        exact h [] y rfl
      have : pathStr (c :: (d :: y ++ t)) = c :: pathStr (d :: y ++ t) := by
        rw [pathStr]
        intro u hu hv
        injection hv with hv _
        exact hcd ⟨hu, hv⟩
      rw [List.cons_append, this, ih]
      rfl

/-- **C128.** The text `scheme://key`, and the `Path` made of it, mean the object `key` of the protocol, for all registered
protocols and names of objects. -/
theorem C128_remote (regs : List (List Char)) (hreg : ∀ r ∈ regs, ProperScheme r) (s k : List Char) (hs : s ∈ regs)
    (hk : ProperKey k) : Fs2.Files.opened regs (remoteText s k) = some (some s, k) ∧
      Fs2.Files.opened regs (pathStr (remoteText s k)) = some (some s, k) := by
  have e1 : remoteText s k = s ++ ':' :: '/' :: ('/' :: k) := by simp [remoteText]
  have r1 : resolve regs (remoteText s k) = some s := by rw [e1]; exact resolve_remote hreg hs
  have hsr := short_remote s k
  rw [pathStr_remote (hreg s hs) hk]
  constructor
  · simp [Fs2.Files.opened, r1, shortUri, normalize_remote, hsr.1, hsr.2, dropWhile_key hk.1]
  · exact opened_pathText hreg hs hk.1

theorem properKey_example : ProperKey "bucket/model.pt".toList := by
  refine ⟨by decide, ?_⟩
  intro a b h
  have h1 : ∀ n, ("bucket/model.pt".toList.drop n).take 2 ≠ ['/', '/'] := by
    intro n
    by_cases hn : n < 16
    · have : ∀ n < 16, ("bucket/model.pt".toList.drop n).take 2 ≠ ['/', '/'] := by decide
      exact this n hn
    · rw [List.drop_eq_nil_of_le (by simp; omega)]; simp
  apply h1 a.length
  rw [h, List.drop_left]
  rfl

example : Fs2.Files.opened ["file".toList, "s3".toList] "s3:/bucket/model.pt".toList = some (some "s3".toList, "bucket/model.pt".toList) :=
  have h := (C128_remote ["file".toList, "s3".toList] (by simp [ProperScheme]) "s3".toList "bucket/model.pt".toList (by simp)
    properKey_example).2
  h

/-- **C128.** An absolute path means the local file of this name. -/
theorem C128_absolute (regs : List (List Char)) (hreg : ∀ r ∈ regs, ProperScheme r) (t : List Char) :
    Fs2.Files.opened regs ('/' :: t) = some (none, '/' :: t) := by
  have hr : resolve regs ('/' :: t) = none := by
    unfold resolve
    rw [List.find?_eq_none]
    intro r hmem hm
    obtain ⟨hne, -, hsl⟩ := hreg r hmem
    obtain ⟨c, r, rfl⟩ := List.exists_cons_of_ne_nil hne
    have hc : c ≠ '/' := by rintro rfl; simp at hsl
    simp [matchesProtocol, prefixOf, List.isPrefixOf, hc] at hm
  simp [Fs2.Files.opened, hr, shortUri, normalize]

example : Fs2.Files.opened ["file".toList, "s3".toList] "/s3:/x".toList = some (none, "/s3:/x".toList) :=
  C128_absolute _ (by simp [ProperScheme]) "s3:/x".toList

/-- **C128.** The paths that `glob` gives for objects of a protocol mean these objects, in their order, unless the name of an object
begins like a path of the protocol itself. -/
theorem C128_glob (regs : List (List Char)) (hreg : ∀ r ∈ regs, ProperScheme r) (s : List Char) (hs : s ∈ regs)
    (objects : List (List Char)) (hk : ∀ k ∈ objects, ProperKey k ∧ ¬ pathText s [] <+: k) :
    (globbed (some s) objects).map (Fs2.Files.opened regs) = objects.map fun k => some (some s, k) := by
  unfold globbed
  rw [List.map_map]
  apply List.map_congr_left
  intro k hmem
  obtain ⟨h1, h2⟩ := hk k hmem
  have hl := longUri_key h2
  simp only [Function.comp, hl]
  exact (C128_remote regs hreg s k hs h1).2

example : (globbed (some "s3".toList) ["bucket/model.pt".toList]).map (Fs2.Files.opened ["s3".toList]) =
    [some (some "s3".toList, "bucket/model.pt".toList)] :=
  C128_glob ["s3".toList] (by simp [ProperScheme]) "s3".toList (by simp) ["bucket/model.pt".toList]
    (by
      intro k hk
      obtain rfl : k = "bucket/model.pt".toList := by simpa using hk
      exact ⟨properKey_example, by decide⟩)

/-- **C128.** The file system of a protocol refuses exactly the paths that do not begin with its scheme, a colon and a slash. -/
theorem C128_refused (s t : List Char) : shortUri (some s) t = none ↔ ¬ pathText s [] <+: t := by
  have e : pathText s [] = s ++ [':', '/'] := by simp [pathText]
  rw [e]
  by_cases h : s ++ [':', '/'] <+: t
  · have h1 := List.isPrefixOf_iff_prefix.2 h
    by_cases h2 : (prefixOf s).isPrefixOf t = true
    · simp [shortUri, normalize, h2, h]
    · have hn : normalize (some s) t = prefixOf s ++ t.drop (s.length + 2) := by
        simp only [normalize, h1, h2]
        simp
      simp only [shortUri, hn, isPrefixOf_append]
      simp [h]
  · have h1 : (s ++ [':', '/']).isPrefixOf t = false := by
      rw [Bool.eq_false_iff, Ne, List.isPrefixOf_iff_prefix]; exact h
    have h2 : (prefixOf s).isPrefixOf t = false := by
      rw [Bool.eq_false_iff, Ne, List.isPrefixOf_iff_prefix]
      rintro ⟨u, hu⟩
      exact h ⟨'/' :: u, by rw [← hu]; simp [prefixOf]⟩
    have hn : normalize (some s) t = t := by simp [normalize, h1]
    simp only [shortUri, hn, h2]
    simp [h]

example : shortUri (some "s3".toList) "/tmp/x".toList = none := (C128_refused _ _).2 (by decide)

/-- **C128.** A local file is copied to the same object (`copy_from_local`), whether the target is given as a bare name, with the
scheme, or as a `Path` with the scheme. -/
theorem C128_copy_target (s k t : List Char) (hk : ProperKey k) (hp : ¬ pathText s [] <+: k)
    (ht : t = k ∨ t = remoteText s k ∨ t = pathText s k) : shortUri (some s) (longUri (some s) t) = some k := by
  have hsr := short_remote s k
  have hl : longUri (some s) t = remoteText s k := by
    rcases ht with rfl | rfl | rfl
    · exact longUri_key hp
    · simp only [longUri, normalize_remote, hsr.1, if_true]
    · simp only [longUri, normalize_pathText hk.1, hsr.1, if_true]
  rw [hl]
  simp only [shortUri, normalize_remote, hsr.1, hsr.2, if_true, dropWhile_key hk.1]

example : shortUri (some "s3".toList) (longUri (some "s3".toList) "s3:/bucket/model.pt".toList) = some "bucket/model.pt".toList :=
  C128_copy_target _ _ _ properKey_example (by decide) (.inr (.inr rfl))

/-- **C128 fails for `file`.** The URI of an absolute local path means the path without its first slash, which the local file
system looks for in the current directory, as text and as `Path`. -/
theorem C128_file_negation (regs : List (List Char)) (hreg : ∀ r ∈ regs, ProperScheme r) (hf : "file".toList ∈ regs)
    (k : List Char) (hk : ProperKey k) :
    Fs2.Files.opened regs (remoteText "file".toList ('/' :: k)) = some (some "file".toList, k) ∧
      Fs2.Files.opened regs (pathStr (remoteText "file".toList ('/' :: k))) = some (some "file".toList, k) := by
  have hps := hreg _ hf
  constructor
  · have e1 : remoteText "file".toList ('/' :: k) = "file".toList ++ ':' :: '/' :: ('/' :: '/' :: k) := by simp [remoteText]
    have r1 : resolve regs (remoteText "file".toList ('/' :: k)) = some "file".toList := by
      rw [e1]; exact resolve_remote hreg hf
    have hsr := short_remote "file".toList ('/' :: k)
    have hd : ('/' :: k).dropWhile (· = '/') = k := by
      rw [List.dropWhile_cons, if_pos (by simp)]
      exact dropWhile_key hk.1
    unfold Fs2.Files.opened shortUri
    rw [r1]
    simp only [normalize_remote, hsr.1, hsr.2, if_true, hd, Option.map_some]
  · have e : pathStr (remoteText "file".toList ('/' :: k)) = pathStr (remoteText "file".toList k) := by
      have h1 : remoteText "file".toList ('/' :: k) = ("file".toList ++ [':']) ++ '/' :: '/' :: '/' :: k := by simp [remoteText]
      have h2 : remoteText "file".toList k = ("file".toList ++ [':']) ++ '/' :: '/' :: k := by simp [remoteText]
      rw [h1, h2, pathStr_append (by simp), pathStr_append (by simp)]
      rfl
    rw [e]
    exact (C128_remote regs hreg _ k hf hk).2

example : Fs2.Files.opened ["file".toList, "s3".toList] "file:///bucket/model.pt".toList =
    some (some "file".toList, "bucket/model.pt".toList) :=
  (C128_file_negation ["file".toList, "s3".toList] (by simp [ProperScheme]) (by simp) "bucket/model.pt".toList properKey_example).1

/-- **C128 fails for `walk_directory`.** The names in a remote directory get the prefix of the protocol. Joined to the directory,
as the provider of metadata does it, they mean objects whose names have the scheme in them, and never the files in the directory. -/
theorem C128_walk_negation (regs : List (List Char)) (hreg : ∀ r ∈ regs, ProperScheme r) (s : List Char) (hs : s ∈ regs)
    (dir name : List Char) (hd : ProperKey dir) (hne : dir ≠ []) (hl : dir.getLast? ≠ some '/') (hp : ¬ pathText s [] <+: dir)
    (hn : '/' ∉ name) :
    (walked (some s) dir [name]).2 = [remoteText s name] ∧
      Fs2.Files.opened regs (joined (pathStr (walked (some s) dir [name]).1) (remoteText s name)) =
        some (some s, dir ++ '/' :: pathText s name) ∧
      dir ++ '/' :: pathText s name ≠ dir ++ '/' :: name := by
  have hps := hreg s hs
  have hpn : ¬ pathText s [] <+: name := by
    rintro ⟨t, ht⟩
    exact hn (by rw [← ht]; simp [pathText])
  have hkn : NoDouble ('/' :: name) := by
    intro a b he
    cases a with
    | nil => injection he with _ he; exact hn (by rw [he]; simp)
    | cons c a => injection he with _ he; exact hn (by rw [he]; simp)
  refine ⟨by simp [walked, longUri_key hpn], ?_, ?_⟩
  · have e : joined (pathStr (walked (some s) dir [name]).1) (remoteText s name) = pathText s (dir ++ '/' :: pathText s name) := by
      have h1 : (walked (some s) dir [name]).1 = remoteText s dir := longUri_key hp
      rw [h1, pathStr_remote hps hd, joined]
      have h2 : pathText s dir ++ '/' :: remoteText s name =
          (s ++ [':']) ++ (('/' :: dir) ++ (['/'] ++ ((s ++ [':']) ++ '/' :: '/' :: name))) := by simp [pathText, remoteText]
      have h3 : pathText s (dir ++ '/' :: pathText s name) =
          (s ++ [':']) ++ (('/' :: dir) ++ (['/'] ++ ((s ++ [':']) ++ '/' :: name))) := by simp [pathText]
      have hsl : '/' ∉ s ++ [':'] := by simp [hps.2.2]
      have h4 : pathStr (['/'] ++ ((s ++ [':']) ++ '/' :: '/' :: name)) = ['/'] ++ pathStr ((s ++ [':']) ++ '/' :: '/' :: name) := by
        obtain ⟨c, r, rfl⟩ := List.exists_cons_of_ne_nil hps.1
        have hc : c ≠ '/' := by rintro rfl; simp at hsl
        simp only [List.cons_append, List.nil_append]
        rw [pathStr]
        intro u _ hv
        injection hv with hv _
        exact hc hv
      have hlast : ('/' :: dir).getLast? ≠ some '/' := by
        obtain ⟨c, r, rfl⟩ := List.exists_cons_of_ne_nil hne
        simpa using hl
      rw [h2, h3, pathStr_append hsl, pathStr_append_proper (noDouble_slash hd) hlast, h4, pathStr_append hsl, pathStr,
        pathStr_noDouble hkn]
    rw [e]
    refine opened_pathText hreg hs ?_
    obtain ⟨c, r, rfl⟩ := List.exists_cons_of_ne_nil hne
    simpa using hd.1
  · intro h
    have h := List.append_cancel_left h
    injection h with _ h
    have := congrArg List.length h
    simp [pathText] at this
    omega

/- A case: the metadata file `m.yaml` in `s3://b/d`. -/
example :
    Fs2.Files.opened ["s3".toList] (joined (pathStr (walked (some "s3".toList) "b/d".toList ["m.yaml".toList]).1) "s3://m.yaml".toList) =
      some (some "s3".toList, "b/d/s3:/m.yaml".toList) := by
  decide +kernel

/-- **C128 fails for sequences.** Paths of different file systems are not refused: the file system of the first path is used for
all. -/
theorem C128_mixed_negation (regs : List (List Char)) (p : List Char) (ps : List (List Char)) :
    resolveAll regs (p :: ps) = some (resolve regs p) := by
  simp [resolveAll]

example : resolveAll ["s3".toList] ["s3://b/x".toList, "/local/y".toList] = some (some "s3".toList) := by decide +kernel

end Fs2.Props
