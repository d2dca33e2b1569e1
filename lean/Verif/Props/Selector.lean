import Verif.Native.SelectorParse
import Verif.Native.SelectorMap

/-!
# Element selectors: C23

How a selector is written (`pathText`, `Item.Good`) and what its segments stand for (`Item.seg`) are in `Native/SelectorParse.lean`;
which nodes a path names (`Names`) and when they all exist (`Resolves`) are in `Native/Selector.lean`.
-/

namespace Fs2.Props

open Fs2.Native

/-! ## Parsing -/

theorem mapM_some {α β : Type} {f : α → Option β} {l : List α} {r : List β} (h : l.map f = r.map some) : l.mapM f = some r := by
  induction l generalizing r with
  | nil => cases r <;> simp_all
  | cons a l ih =>
    cases r with
    | nil => simp at h
    | cons b r =>
      simp only [List.map_cons, List.cons.injEq] at h
      simp [List.mapM_cons, h.1, ih h.2]

theorem mapM_some_iff {α β : Type} {f : α → Option β} {l : List α} {r : List β} (h : l.mapM f = some r) : l.map f = r.map some := by
  induction l generalizing r with
  | nil => simp at h; simp [h]
  | cons a l ih =>
    rw [List.mapM_cons] at h
    cases ha : f a with
    | none => simp [ha] at h
    | some b =>
      cases hl : l.mapM f with
      | none => simp [ha, hl] at h
      | some bs =>
        simp [ha, hl] at h
        subst h
        simp [ha, ih hl]

/-- A comma separated list of well-formed paths, with white space around them, is accepted and means these paths. -/
theorem C23_accepts {s : List Char} {fs : List (List Char)} (hs : Fields ',' s fs) {paths : List (List Item)}
    (hp : fs.map trim = paths.map pathText) (h0 : ∀ is ∈ paths, is ≠ []) (hg : ∀ is ∈ paths, ∀ it ∈ is, it.Good) :
    parseSelector s = some (paths.map fun is => is.map Item.seg) := by
  unfold parseSelector
  rw [split_eq, ← hs.unique]
  apply mapM_some
  clear hs
  induction fs generalizing paths with
  | nil => cases paths <;> simp_all
  | cons f fs ih =>
    cases paths with
    | nil => simp at hp
    | cons is paths =>
      simp only [List.map_cons, List.cons.injEq] at hp ⊢
      refine ⟨parsePath_good (h0 is (by simp)) (hg is (by simp)) hp.1, ?_⟩
      exact ih hp.2 (fun is h => h0 is (List.mem_cons_of_mem _ h)) (fun is h => hg is (List.mem_cons_of_mem _ h))

/-- `"a.b[1], c[*]"`. -/
example : parseSelector "a.b[1], c[*]".toList = some [[.key ['a'], .key ['b'], .idx 1], [.key ['c'], .idx wildcard]] :=
  C23_accepts (fs := ["a.b[1]".toList, " c[*]".toList]) ⟨by decide, by decide, by decide⟩
    (paths := [[.key ['a'], .key ['b'], .index ['1']], [.key ['c'], .index ['*']]]) (by decide) (by simp)
    (by
      intro is his it hit
      simp only [List.mem_cons, List.not_mem_nil, or_false] at his
      rcases his with rfl | rfl <;> simp only [List.mem_cons, List.not_mem_nil, or_false] at hit
      · rcases hit with rfl | rfl | rfl
        · exact ⟨by decide, by decide⟩
        · exact ⟨by decide, by decide⟩
        · exact .inr ⟨by decide, by decide, by decide⟩
      · rcases hit with rfl | rfl
        · exact ⟨by decide, by decide⟩
        · exact .inl rfl)

/-- What is accepted is a comma separated list of paths, each made of non-empty keys without dots, brackets and white space and of
non-empty brackets; keys mean themselves.  The full claim says moreover that brackets hold a decimal number or an asterisk and mean
that: see `C23_mixed_index` and `C23_overflow`. -/
theorem C23_rejects_partial {s : List Char} {ps : List Path} (h : parseSelector s = some ps) :
    ∃ (fs : List (List Char)) (paths : List (List Item)), Fields ',' s fs ∧ fs.map trim = paths.map pathText ∧ (∀ is ∈ paths, is ≠ []) ∧ (∀ is ∈ paths, ∀ it ∈ is, it.Shaped) ∧
      paths.length = ps.length ∧ ∀ q ∈ paths.zip ps, Fits q.1 q.2 := by
  unfold parseSelector at h
  rw [split_eq] at h
  have hf := parts_fields ',' [] s (by simp)
  simp only [List.nil_append] at hf
  refine ⟨parts ',' [] s, ?_⟩
  suffices hsuf : ∃ paths : List (List Item), (parts ',' [] s).map trim = paths.map pathText ∧ (∀ is ∈ paths, is ≠ []) ∧
      (∀ is ∈ paths, ∀ it ∈ is, it.Shaped) ∧ paths.length = ps.length ∧ ∀ q ∈ paths.zip ps, Fits q.1 q.2 by
    obtain ⟨paths, h1⟩ := hsuf
    exact ⟨paths, hf, h1⟩
  clear hf
  replace h := mapM_some_iff h
  generalize parts ',' [] s = fs at h ⊢
  induction fs generalizing ps with
  | nil =>
    cases ps with
    | nil => exact ⟨[], by simp⟩
    | cons => simp at h
  | cons f fs ih =>
    cases ps with
    | nil => simp at h
    | cons p ps =>
      simp only [List.map_cons, List.cons.injEq] at h
      obtain ⟨is, h1, h2, h3⟩ := parsePath_sound h.1
      obtain ⟨paths, i1, i2, i3, i4, i5⟩ := ih h.2
      have hshape : ∀ {is : List Item} {p : Path}, Fits is p → ∀ it ∈ is, it.Shaped := by
        intro is p hfit
        induction hfit with
        | nil => simp
        | key k _ hk hk' ih =>
          intro it hit
          rcases List.mem_append.mp hit with hit | hit
          · exact ih it hit
          · simp at hit; subst hit; exact ⟨hk, hk'⟩
        | index t n _ ht ht' ih =>
          intro it hit
          rcases List.mem_append.mp hit with hit | hit
          · exact ih it hit
          · simp at hit; subst hit; exact ⟨ht, ht'⟩
      refine ⟨is :: paths, by simp [h3, i1], ?_, ?_, by simp [i4], ?_⟩
      · intro js hjs
        rcases List.mem_cons.mp hjs with rfl | hjs
        · exact h1
        · exact i2 js hjs
      · intro js hjs
        rcases List.mem_cons.mp hjs with rfl | hjs
        · exact hshape h2
        · exact i3 js hjs
      · intro q hq
        simp only [List.zip_cons_cons, List.mem_cons] at hq
        rcases hq with rfl | hq
        · exact h2
        · exact i5 q hq

/-- Malformed selectors that are rejected. -/
example : parseSelector "".toList = none ∧ parseSelector "a..b".toList = none ∧ parseSelector "a.".toList = none ∧
    parseSelector "a[".toList = none ∧ parseSelector "a[]".toList = none ∧ parseSelector "a,".toList = none ∧
    parseSelector "a b".toList = none := by decide

/-- The code disagrees with the claim: `[1*]` is accepted, as a wildcard (element_selector.cc:121-123). -/
theorem C23_mixed_index : parseSelector "a[1*]".toList = some [[.key ['a'], .idx wildcard]] := by decide

/-- The code disagrees with the claim: the test for overflow misses indices that wrap around to a larger number
(element_selector.cc:112-119), and the largest index is the wildcard. -/
theorem C23_overflow :
    parseSelector "[30000000000000000000]".toList = some [[.idx (30000000000000000000 - 2 ^ 64)]] ∧
    parseSelector "[18446744073709551615]".toList = some [[.idx wildcard]] := by decide

/-! ## Visiting -/

/-- Visiting succeeds exactly if every node that is named exists, and then touches exactly the nodes named: once for every path that
names them. -/
theorem C23_visit (ps : List Path) (d : Data) :
    ((∃ vs, visitPaths ps d [] = some vs) ↔ ∀ p ∈ ps, Resolves p d) ∧
    ∀ vs, visitPaths ps d [] = some vs →
      (∀ l, l ∈ vs.map (·.1) ↔ ∃ p ∈ ps, Names p d l) ∧
      ∃ parts : List (List Loc), vs.map (·.1) = parts.flatten ∧ parts.length = ps.length ∧
        ∀ q ∈ ps.zip parts, q.2.Nodup ∧ ∀ l, l ∈ q.2 ↔ Names q.1 d l := by
  obtain ⟨h1, h2⟩ := visitPaths_spec ps d []
  refine ⟨⟨fun ⟨vs, hv⟩ => (h1 vs hv).1, fun h => ?_⟩, fun vs hv => ?_⟩
  · cases hv : visitPaths ps d [] with
    | some vs => exact ⟨vs, rfl⟩
    | none =>
      obtain ⟨p, hp, hn⟩ := h2 hv
      exact absurd (h p hp) hn
  · have heq := (h1 vs hv).2
    simp only [List.map_nil, List.nil_append] at heq
    refine ⟨fun l => by rw [heq]; simp [mem_locs], ps.map fun p => locs p d, ?_, by simp, ?_⟩
    · rw [heq, List.flatMap_def]
    · intro q hq
      obtain ⟨p, l⟩ := q
      have : ∀ (ps : List Path) , (p, l) ∈ ps.zip (ps.map fun p => locs p d) → l = locs p d := by
        intro ps
        induction ps with
        | nil => simp
        | cons a ps ih =>
          simp only [List.map_cons, List.zip_cons_cons, List.mem_cons, Prod.mk.injEq]
          rintro (⟨rfl, rfl⟩ | h)
          · rfl
          · exact ih h
      rw [this ps hq]
      exact ⟨nodup_locs p d, fun l => mem_locs⟩

/-- `"a[*]"` on a dictionary with a list of two. -/
example : ∃ vs, visitPaths [[.key ['a'], .idx wildcard]] (.dict [("a", .list [.int 1, .int 2]), ("b", .int 3)]) [] = some vs ∧
    vs.map (·.1) = [[.key ['a'], .idx 0], [.key ['a'], .idx 1]] := ⟨_, rfl, rfl⟩

/-- The code disagrees with the claim in what the visitor is told: behind a second wildcard the path that it is given has a segment
too many from the second element of the outer list on (element_selector.cc:277-278). -/
theorem C23_resolved_path : ∃ vs, visitPaths [[.idx wildcard, .idx wildcard]]
      (.list [.list [.int 1, .int 2], .list [.int 3]]) [] = some vs ∧
    vs.map (·.1) = [[.idx 0, .idx 0], [.idx 0, .idx 1], [.idx 1, .idx 0]] ∧
    vs.map (·.2) ≠ [[.idx 0, .idx 0], [.idx 0, .idx 1], [.idx 1, .idx 0]] := by
  refine ⟨_, rfl, rfl, ?_⟩
  decide

/-! ## Mapping -/

/-- A single path never names a node inside another or twice. -/
theorem one_path (p : Path) (d : Data) : (locs p d).Pairwise fun a b => ¬ a <+: b ∧ ¬ b <+: a := by
  have hlen : ∀ (p : Path) (d : Data) (l : Loc), Names p d l → l.length = p.length := by
    intro p d l h
    induction h with
    | here => rfl
    | key _ _ ih => simp [ih]
    | idx _ _ _ ih => simp [ih]
    | all _ _ ih => simp [ih]
  have hn := nodup_locs p d
  refine (List.pairwise_iff_getElem.mpr fun i j hi hj hij => ?_)
  have hne : (locs p d)[i] ≠ (locs p d)[j] := List.pairwise_iff_getElem.mp hn i j hi hj hij
  have h1 := hlen p d _ (mem_locs.mp (List.getElem_mem hi))
  have h2 := hlen p d _ (mem_locs.mp (List.getElem_mem hj))
  exact ⟨fun h => hne (h.eq_of_length (by omega)), fun h => hne (h.eq_of_length (by omega)).symm⟩

theorem all_paths {ps : List Path} {d : Data}
    (h : ps.Pairwise fun p q => ∀ l m, Names p d l → Names q d m → ¬ l <+: m ∧ ¬ m <+: l) :
    (ps.flatMap fun p => locs p d).Pairwise fun a b => ¬ a <+: b ∧ ¬ b <+: a := by
  induction ps with
  | nil => simp
  | cons p ps ih =>
    rw [List.pairwise_cons] at h
    rw [List.flatMap_cons, List.pairwise_append]
    refine ⟨one_path p d, ih h.2, fun a ha b hb => ?_⟩
    obtain ⟨q, hq, hb⟩ := List.mem_flatMap.mp hb
    exact h.1 q hq a b (mem_locs.mp ha) (mem_locs.mp hb)

/-- `map` with a selector no two of whose paths name the same node or one inside another: it succeeds exactly if the nodes named exist and the
function succeeds on all of them; then they are replaced by the results, every node beside them is unchanged, and the lists and
dictionaries around them keep their length and keys.  For paths that overlap see `C23_overlap`. -/
theorem C23_map_partial {f : Data → Except Err Data} {ps : List Path} {d : Data}
    (hdis : ps.Pairwise fun p q => ∀ l m, Names p d l → Names q d m → ¬ l <+: m ∧ ¬ m <+: l) :
    ((∃ d', mapElements f (some ps) d = .ok d') ↔ (∀ p ∈ ps, Resolves p d) ∧
      ∀ p ∈ ps, ∀ l, Names p d l → ∀ x, nodeAt l d = some x → ∃ y, f x = .ok y) ∧
    ∀ d', mapElements f (some ps) d = .ok d' →
      (∀ p ∈ ps, ∀ l, Names p d l → ∃ x y, nodeAt l d = some x ∧ f x = .ok y ∧ nodeAt l d' = some y) ∧
      (∀ m, (∀ p ∈ ps, ∀ l, Names p d l → ¬ l <+: m) → (nodeAt m d').map head = (nodeAt m d).map head) ∧
      (∀ m, (∀ p ∈ ps, ∀ l, Names p d l → ¬ l <+: m ∧ ¬ m <+: l) → nodeAt m d' = nodeAt m d) := by
  obtain ⟨h1, h2⟩ := visitPaths_spec ps d []
  cases hv : visitPaths ps d [] with
  | none =>
    obtain ⟨p, hp, hn⟩ := h2 hv
    simp only [mapElements, hv]
    refine ⟨⟨fun ⟨_, h⟩ => (by cases h), fun h => absurd (h.1 p hp) hn⟩, fun d' h => (by cases h)⟩
  | some vs =>
    obtain ⟨hres, heq⟩ := h1 vs hv
    simp only [List.map_nil, List.nil_append] at heq
    have hmem : ∀ l, l ∈ vs.map (·.1) ↔ ∃ p ∈ ps, Names p d l := fun l => by rw [heq]; simp [mem_locs]
    have hdis := all_paths hdis
    rw [← heq] at hdis
    have hin : ∀ l ∈ vs.map (·.1), nodeAt l d ≠ none := fun l hl => by
      obtain ⟨p, _, hn⟩ := (hmem l).mp hl
      obtain ⟨x, hx⟩ := hn.node
      rw [hx]; simp
    obtain ⟨m1, m2⟩ := mapNodes_spec (f := f) hdis hin
    simp only [mapElements, hv]
    refine ⟨?_, fun d' hd' => ?_⟩
    · rw [m1]
      constructor
      · intro h
        exact ⟨hres, fun p hp l hn x hx => h l ((hmem l).mpr ⟨p, hp, hn⟩) x hx⟩
      · rintro ⟨-, h⟩ l hl x hx
        obtain ⟨p, hp, hn⟩ := (hmem l).mp hl
        exact h p hp l hn x hx
    · obtain ⟨n1, n2, n3⟩ := m2 d' hd'
      refine ⟨fun p hp l hn => ?_, fun m hm => n2 m fun l hl => ?_, fun m hm => n3 m fun l hl => ?_⟩
      · obtain ⟨x, hx⟩ := hn.node
        obtain ⟨y, hy, hy'⟩ := n1 l ((hmem l).mpr ⟨p, hp, hn⟩) x hx
        exact ⟨x, y, hx, hy, hy'⟩
      · obtain ⟨p, hp, hn⟩ := (hmem l).mp hl
        exact hm p hp l hn
      · obtain ⟨p, hp, hn⟩ := (hmem l).mp hl
        exact hm p hp l hn

/-- The function that adds one to an integer. -/
def plusOne : Data → Except Err Data
  | .int i => .ok (.int (i + 1))
  | _ => .error ⟨false, ""⟩

example := C23_map_partial (f := plusOne) (ps := [[.key ['a'], .idx wildcard]])
  (d := .dict [("a", .list [.int 1, .int 2]), ("b", .int 3)]) (List.pairwise_singleton _ _)
example : mapElements plusOne (some [[.key ['a'], .idx wildcard]]) (.dict [("a", .list [.int 1, .int 2]), ("b", .int 3)]) =
    .ok (.dict [("a", .list [.int 2, .int 3]), ("b", .int 3)]) := rfl

/-- Without the condition the function is applied twice to a node that two paths name. -/
theorem C23_overlap : parseSelector "a,a".toList = some [[.key ['a']], [.key ['a']]] ∧
    mapElements plusOne (some [[.key ['a']], [.key ['a']]]) (.dict [("a", .int 1)]) = .ok (.dict [("a", .int 3)]) :=
  ⟨by decide, rfl⟩

end Fs2.Props
