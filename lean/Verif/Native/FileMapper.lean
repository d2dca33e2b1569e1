import Verif.Native.Lru
import Verif.Native.Split

/-!
# Memory mapped files

Model of `file_mapper` (native/src/fairseq2n/data/file_mapper.cc:24-139).  Simplifications: the file system does not change; a path
is not joined with the root directory (`disk` stands for both); one call at a time, which is what `cache_mutex_` is for.
-/

namespace Fs2.Native

abbrev Bytes := List UInt8

/-- What `memory_map_file(root_dir_ / pathname)` gives. -/
abbrev Disk := List Char → Except Err Bytes

/-- A `memory_block`: a pointer into a mapped file and a size (memory.h:113-122). -/
structure Block where
  file : Bytes
  off : Nat
  size : Nat

/-- Every byte of the block is in the file. -/
def Block.Inside (b : Block) : Prop := b.off + b.size ≤ b.file.length

/-- What is read through the block, if it is inside the file. -/
def Block.bytes (b : Block) : Bytes := (b.file.drop b.off).take b.size

/-- `share_slice(offset)` and `share_slice(offset, count)` (memory.h:113-122). -/
def Block.slice (b : Block) (offset : Nat) : Block := ⟨b.file, b.off + offset, b.size - offset⟩
def Block.slice2 (b : Block) (offset count : Nat) : Block := ⟨b.file, b.off + offset, count⟩

def badSpec : Err := ⟨false, "The input string must be a pathname with optional offset and size specifiers."⟩

/-- The handler that collects the parts (file_mapper.cc:48-63). -/
def collect (ps : List (List Char)) (part : List Char) : Except Err (List (List Char) × Bool) :=
  if ps.length = 3 then .error badSpec
  else
    let part := trim part
    if part = [] then .error badSpec
    else .ok (ps ++ [part], true)

/-- The three parts of `pathname:offset:size` (file_mapper.cc:42-85). -/
def parseSpec (s : List Char) : Except Err (List Char × Option Nat × Option Nat) :=
  match splitLoop ':' collect [] [] s with
  | .error e => .error e
  | .ok [p] => .ok (p, none, none)
  | .ok [p, o] =>
    match parseSize o with
    | .error e => .error e
    | .ok o => .ok (p, some o, none)
  | .ok [p, o, z] =>
    match parseSize o, parseSize z with
    | .error e, _ => .error e
    | _, .error e => .error e
    | .ok o, .ok z => .ok (p, some o, some z)
  | .ok _ => .error badSpec

/-- `get_memory_map` (file_mapper.cc:124-139). -/
def getMap (disk : Disk) (c : Lru (List Char) Block) (p : List Char) : Except Err Block × Lru (List Char) Block :=
  match c.get p with
  | (some b, c) => (.ok b, c)
  | (none, c) =>
    match disk p with
    | .error e => (.error e, c)
    | .ok f => (.ok ⟨f, 0, f.length⟩, c.add p ⟨f, 0, f.length⟩)

/-- file_mapper.cc:99-121; sums are taken in 64 bits. -/
def cut (block : Block) : Option Nat → Option Nat → Except Err Block
  | none, _ => .ok block
  | some offset, size =>
    if offset > block.size then .error ⟨false, "The specified offset must be less than or equal to the file size."⟩
    else match size with
      | none => .ok (block.slice offset)
      | some size =>
        if (offset + size) % 2 ^ 64 > block.size then
          .error ⟨false, "The end of the specified region must be less than or equal to the file size."⟩
        else .ok (block.slice2 offset size)

/-- `file_mapper::operator()` (file_mapper.cc:33-122) on a string. -/
def mapFile (disk : Disk) (c : Lru (List Char) Block) (s : List Char) : Except Err Block × Lru (List Char) Block :=
  match parseSpec s with
  | .error e => (.error e, c)
  | .ok (p, o, z) =>
    match getMap disk c p with
    | (.error e, c) => (.error e, c)
    | (.ok b, c) => (cut b o z, c)

/-- The cache after some calls. -/
inductive Mapped (disk : Disk) (cap : Nat) : Lru (List Char) Block → Prop where
  | new : Mapped disk cap (.new cap)
  | call {c} (s : List Char) : Mapped disk cap c → Mapped disk cap (mapFile disk c s).2

/-! ## Lemmas -/

/-- The cache only ever holds whole files. -/
theorem getMap_cached {disk : Disk} {cap : Nat} {h : LruHist (List Char) Block} {c : Lru (List Char) Block} (hr : Lru.Ran cap h c)
    (hd : ∀ p b, lastAdded p h = some b → ∃ f, disk p = .ok f ∧ b = ⟨f, 0, f.length⟩) (p : List Char) :
    ((getMap disk c p).1 = match disk p with
      | .error e => .error e
      | .ok f => .ok ⟨f, 0, f.length⟩) ∧
    ∃ h', Lru.Ran cap h' (getMap disk c p).2 ∧
      ∀ p b, lastAdded p h' = some b → ∃ f, disk p = .ok f ∧ b = ⟨f, 0, f.length⟩ := by
  have hg := hr.step (.get p)
  simp only [Lru.step] at hg
  unfold getMap
  cases hc : c.get p with
  | mk o c' =>
    rw [hc] at hg
    have hd' : ∀ p' b, lastAdded p' ((LruOp.get p, o) :: h) = some b → ∃ f, disk p' = .ok f ∧ b = ⟨f, 0, f.length⟩ :=
      fun p' b hb => hd p' b hb
    cases o with
    | some b =>
      refine ⟨?_, _, hg, hd'⟩
      -- the value found was added
      have : lastAdded p h = some b := by
        have i := hr.inv
        unfold Lru.get at hc
        cases hf : c.find p with
        | none => rw [hf] at hc; cases hc
        | some id =>
          rw [hf] at hc
          obtain ⟨e, he, hk, -, h1, -⟩ := i.move hf
          simp only [h1, List.head?_cons, Option.map_some, Prod.mk.injEq, Option.some.injEq] at hc
          rw [← hk, i.vals e he, hc.1]
      obtain ⟨f, h1, rfl⟩ := hd p b this
      rw [h1]
    | none =>
      cases hp : disk p with
      | error e => exact ⟨rfl, _, hg, hd'⟩
      | ok f =>
        refine ⟨rfl, _, hg.step (.add p ⟨f, 0, f.length⟩), ?_⟩
        intro p' b hb
        simp only [lastAdded] at hb
        split at hb
        · next e => subst e; cases hb; exact ⟨f, hp, rfl⟩
        · exact hd p' b hb

theorem Mapped.ran {disk : Disk} {cap : Nat} {c : Lru (List Char) Block} (h : Mapped disk cap c) :
    ∃ h, Lru.Ran cap h c ∧ ∀ p b, lastAdded p h = some b → ∃ f, disk p = .ok f ∧ b = ⟨f, 0, f.length⟩ := by
  induction h with
  | new => exact ⟨[], .new, fun p b hb => by cases hb⟩
  | @call c s _ ih =>
    obtain ⟨h, h1, h2⟩ := ih
    unfold mapFile
    cases parseSpec s with
    | error e => exact ⟨h, h1, h2⟩
    | ok t =>
      obtain ⟨p, o, z⟩ := t
      obtain ⟨-, h3⟩ := getMap_cached h1 h2 p
      simp only
      cases hg : getMap disk c p with
      | mk r c' =>
        rw [hg] at h3
        cases r with
        | error e => exact h3
        | ok b => exact h3

/-- A call does not depend on what is in the cache. -/
theorem mapFile_eq {disk : Disk} {cap : Nat} {c : Lru (List Char) Block} (h : Mapped disk cap c) (s : List Char) :
    (mapFile disk c s).1 = match parseSpec s with
      | .error e => .error e
      | .ok (p, o, z) => match disk p with
        | .error e => .error e
        | .ok f => cut ⟨f, 0, f.length⟩ o z := by
  obtain ⟨h, h1, h2⟩ := h.ran
  unfold mapFile
  cases parseSpec s with
  | error e => rfl
  | ok t =>
    obtain ⟨p, o, z⟩ := t
    obtain ⟨h3, -⟩ := getMap_cached h1 h2 p
    simp only
    cases hg : getMap disk c p with
    | mk r c' =>
      rw [hg] at h3
      simp only at h3
      subst h3
      cases disk p <;> rfl

/-- Parts of a specification: nothing but what is between the colons, without surrounding space. -/
theorem parseSpec_eq {s : List Char} {fs : List (List Char)} (hs : Fields ':' s fs) :
    parseSpec s = if fs.length ≤ 3 ∧ ∀ f ∈ fs, trim f ≠ [] then
      match fs.map trim with
      | [p] => .ok (p, none, none)
      | [p, o] =>
        match parseSize o with
        | .error e => .error e
        | .ok o => .ok (p, some o, none)
      | [p, o, z] =>
        match parseSize o, parseSize z with
        | .error e, _ => .error e
        | _, .error e => .error e
        | .ok o, .ok z => .ok (p, some o, some z)
      | _ => .error badSpec
    else .error badSpec := by
  have key : ∀ (fs acc : List (List Char)), acc.length ≤ 3 → feed collect acc fs = if acc.length + fs.length ≤ 3 ∧ ∀ f ∈ fs, trim f ≠ [] then
      .ok (acc ++ fs.map trim) else .error badSpec := by
    intro fs
    induction fs with
    | nil => intro acc h; simp [feed, h]
    | cons f fs ih =>
      intro acc h
      simp only [feed, collect]
      by_cases h3 : acc.length = 3
      · rw [if_pos h3, if_neg (by simp; omega)]
      · rw [if_neg h3]
        by_cases hf : trim f = []
        · rw [if_pos hf, if_neg]
          simp [hf]
        · rw [if_neg hf]
          simp only
          rw [ih _ (by simp; omega)]
          simp only [List.length_append, List.length_cons, List.length_nil, List.mem_cons, forall_eq_or_imp, List.map_cons,
            List.append_assoc, List.cons_append, List.nil_append]
          congr 1
          simp only [hf, ne_eq, not_false_eq_true, true_and, eq_iff_iff, and_congr_left_iff]
          omega
  unfold parseSpec
  rw [splitLoop_eq, ← hs.unique, key fs [] (by simp)]
  simp only [List.length_nil, Nat.zero_add, List.nil_append]
  by_cases h : fs.length ≤ 3 ∧ ∀ f ∈ fs, trim f ≠ []
  · rw [if_pos h, if_pos h]
    obtain ⟨h1, -⟩ := h
    match fs with
    | [] => exact absurd rfl hs.1
    | [p] => rfl
    | [p, o] => rfl
    | [p, o, z] => rfl
    | p :: o :: z :: q :: r => simp at h1
  · rw [if_neg h, if_neg h]

end Fs2.Native
