import Verif.Native.Split

/-!
# Element selectors

Model of `element_selector` (native/src/fairseq2n/data/element_selector.cc:24-296) and `element_mapper`
(native/src/fairseq2n/data/element_mapper.cc:20-64).  Simplification: the mapped elements are processed one after the other; in the
code `parallel_for` may process them concurrently.
-/

namespace Fs2.Native

/-- `element_path_segment` (element_selector.h:24). -/
inductive Seg where
  | key (k : List Char)
  | idx (n : Nat)
deriving DecidableEq

abbrev Path := List Seg

/-- element_selector.cc:24. -/
def wildcard : Nat := 2 ^ 64 - 1

/-! ## Parsing -/

/-- `path_parser_state`, with what lies between `segment_offset` and `char_idx` and, in brackets, `idx`. -/
inductive PState where
  | key (cur : List Char)
  | index (cur : List Char) (idx : Nat)
  | parsed

/-- One iteration of the loop (element_selector.cc:83-144); `first` says whether `char_idx` is 0. -/
def parseChar (first : Bool) (chr : Char) : PState → Path → Option (PState × Path)
  | .key cur, out =>
    if chr = '.' then
      if cur = [] then none else some (.key [], out ++ [.key cur])
    else if chr = '[' then
      if cur = [] then
        if first then some (.index [] 0, out) else none
      else some (.index [] 0, out ++ [.key cur])
    else if isSpace chr then none
    else some (.key (cur ++ [chr]), out)
  | .index cur idx, out =>
    if chr = ']' then
      if cur = [] then none else some (.parsed, out ++ [.idx idx])
    else if chr.isDigit then
      let tmp := (10 * idx + digitVal chr) % 2 ^ 64
      if idx > tmp then none else some (.index (cur ++ [chr]) tmp, out)
    else if chr = '*' then some (.index (cur ++ [chr]) wildcard, out)
    else none
  | .parsed, out =>
    if chr = '[' then some (.index [] 0, out)
    else if chr = '.' then some (.key [], out)
    else none

def parseChars (first : Bool) : List Char → PState → Path → Option (PState × Path)
  | [], st, out => some (st, out)
  | c :: s, st, out =>
    match parseChar first c st out with
    | none => none
    | some (st, out) => parseChars false s st out

/-- `maybe_parse_path` (element_selector.cc:56-157). -/
def parsePath (path : List Char) : Option Path :=
  let path := trim path
  if path = [] then none
  else match parseChars true path (.key []) [] with
    | none => none
    | some (.key cur, out) => if cur = [] then none else some (out ++ [.key cur])
    | some (.parsed, out) => some out
    | some (.index .., _) => none

/-- The constructor (element_selector.cc:26-54): paths separated by commas. -/
def parseSelector (s : List Char) : Option (List Path) := (split ',' s).mapM parsePath

/-! ## Visiting -/

/-- Where a node is: the keys and positions that lead to it. -/
abbrev Loc := List Seg

def lookupKey (k : List Char) (kvs : List (String × Data)) : Option Data :=
  (kvs.find? fun e => e.1 = String.ofList k).map (·.2)

/-- The nodes visited, with the path that the visitor is given. -/
abbrev Visited := List (Loc × Path)

/-- The loop over the elements of a list (element_selector.cc:270-275); `go` is the recursive call. -/
def visitAll (go : Nat → Data → Visited → Path → Bool × Visited × Path) : Nat → List Data → Visited → Path → Bool × Visited × Path
  | _, [], vs, res => (true, vs, res)
  | j, x :: xs, vs, res =>
    match go j x vs (res.dropLast ++ [.idx j]) with
    | (false, vs, res) => (false, vs, res)
    | (true, vs, res) => visitAll go (j + 1) xs vs res

/-- `visit` (element_selector.cc:235-296): `i` segments have been processed in this call, `res` is `resolved_path`. -/
def visit : Path → Loc → Nat → Data → Visited → Path → Bool × Visited × Path
  | [], loc, i, _, vs, res => (true, vs ++ [(loc, res)], res.take (res.length - i))
  | .key k :: p, loc, i, d, vs, res =>
    let res := res ++ [.key k]
    match d with
    | .dict kvs =>
      match lookupKey k kvs with
      | none => (false, vs, res)
      | some x => visit p (loc ++ [.key k]) (i + 1) x vs res
    | _ => (false, vs, res)
  | .idx n :: p, loc, i, d, vs, res =>
    let res := res ++ [.idx n]
    match d with
    | .list xs =>
      if n = wildcard then
        match visitAll (fun j x vs res => visit p (loc ++ [.idx j]) 0 x vs res) 0 xs vs res with
        | (false, vs, res) => (false, vs, res)
        -- element_selector.cc:277-278: one fewer than were pushed
        | (true, vs, res) => (true, vs, res.take (res.length - i))
      else match xs[n]? with
        | none => (false, vs, res)
        | some x => visit p (loc ++ [.idx n]) (i + 1) x vs res
    | _ => (false, vs, res)

/-- `visit` for all paths of a selector (element_selector.cc:190-217); `none` if an exception is thrown. -/
def visitPaths : List Path → Data → Visited → Option Visited
  | [], _, vs => some vs
  | p :: ps, d, vs =>
    match visit p [] 0 d vs [] with
    | (false, _, _) => none
    | (true, vs, _) => visitPaths ps d vs

/-! ## Mapping -/

/-- The node at a location. -/
def nodeAt : Loc → Data → Option Data
  | [], d => some d
  | .key k :: l, d =>
    match d with
    | .dict kvs => (lookupKey k kvs).bind (nodeAt l)
    | _ => none
  | .idx n :: l, d =>
    match d with
    | .list xs => xs[n]?.bind (nodeAt l)
    | _ => none

/-- Replaces the value of the first entry with the key. -/
def setKey (k : List Char) (x : Data) : List (String × Data) → List (String × Data)
  | [] => []
  | e :: kvs => if e.1 = String.ofList k then (e.1, x) :: kvs else e :: setKey k x kvs

/-- Writes a node. -/
def putAt : Loc → Data → Data → Data
  | [], x, _ => x
  | .key k :: l, x, d =>
    match d with
    | .dict kvs =>
      match lookupKey k kvs with
      | some y => .dict (setKey k (putAt l x y) kvs)
      | none => d
    | _ => d
  | .idx n :: l, x, d =>
    match d with
    | .list xs =>
      match xs[n]? with
      | some y => .list (xs.set n (putAt l x y))
      | none => d
    | _ => d

/-- The loop over the buffer (element_mapper.cc:38-50). -/
def mapNodes (f : Data → Except Err Data) : List Loc → Data → Except Err Data
  | [], d => .ok d
  | l :: ls, d =>
    match nodeAt l d with
    | none => .error ⟨false, "undefined behaviour"⟩
    | some x =>
      match f x with
      | .error _ => .error ⟨false, "The map function has failed."⟩
      | .ok y => mapNodes f ls (putAt l y d)

/-- `element_mapper::operator()` (element_mapper.cc:27-64). -/
def mapElements (f : Data → Except Err Data) (sel : Option (List Path)) (d : Data) : Except Err Data :=
  match sel with
  | none => f d
  | some ps =>
    match visitPaths ps d [] with
    | none => .error ⟨false, "The input data does not have an element at the path."⟩
    | some vs => mapNodes f (vs.map (·.1)) d

/-! ## Specification -/

/-- The path names the node at the location. -/
inductive Names : Path → Data → Loc → Prop where
  | here (d) : Names [] d []
  | key {k p kvs x l} : lookupKey k kvs = some x → Names p x l → Names (.key k :: p) (.dict kvs) (.key k :: l)
  | idx {n p xs x l} : n ≠ wildcard → xs[n]? = some x → Names p x l → Names (.idx n :: p) (.list xs) (.idx n :: l)
  | all {p xs j x l} : xs[j]? = some x → Names p x l → Names (.idx wildcard :: p) (.list xs) (.idx j :: l)

/-- Every node that the path asks for is there. -/
def Resolves : Path → Data → Prop
  | [], _ => True
  | .key k :: p, d =>
    match d with
    | .dict kvs => ∃ x, lookupKey k kvs = some x ∧ Resolves p x
    | _ => False
  | .idx n :: p, d =>
    match d with
    | .list xs => if n = wildcard then ∀ x ∈ xs, Resolves p x else ∃ x, xs[n]? = some x ∧ Resolves p x
    | _ => False

/-! ## Lemmas about visiting -/

/-- Locations visited, in order, if the path resolves. -/
def locs : Path → Data → List Loc
  | [], _ => [[]]
  | .key k :: p, d =>
    match d with
    | .dict kvs =>
      match lookupKey k kvs with
      | some x => (locs p x).map (.key k :: ·)
      | none => []
    | _ => []
  | .idx n :: p, d =>
    match d with
    | .list xs =>
      if n = wildcard then (xs.mapIdx fun j x => (locs p x).map (Seg.idx j :: ·)).flatten
      else match xs[n]? with
        | some x => (locs p x).map (.idx n :: ·)
        | none => []
    | _ => []

theorem visitAll_spec (go : Nat → Data → Visited → Path → Bool × Visited × Path) (R : Data → Prop) (L : Nat → Data → List Loc)
    (loc : Loc)
    (hgo : ∀ j x vs res, ((go j x vs res).1 = true ↔ R x) ∧
      ((go j x vs res).1 = true → (go j x vs res).2.1.map (·.1) = vs.map (·.1) ++ (L j x).map (loc ++ ·)))
    (xs : List Data) (j : Nat) (vs : Visited) (res : Path) :
    ((visitAll go j xs vs res).1 = true ↔ ∀ x ∈ xs, R x) ∧
    ((visitAll go j xs vs res).1 = true → (visitAll go j xs vs res).2.1.map (·.1) =
      vs.map (·.1) ++ ((xs.mapIdx fun i x => L (j + i) x).flatten).map (loc ++ ·)) := by
  induction xs generalizing j vs res with
  | nil => simp [visitAll]
  | cons x xs ih =>
    obtain ⟨h1, h2⟩ := hgo j x vs (res.dropLast ++ [.idx j])
    simp only [visitAll]
    cases hg : go j x vs (res.dropLast ++ [.idx j]) with
    | mk b r =>
      obtain ⟨vs', res'⟩ := r
      rw [hg] at h1 h2
      cases b with
      | false =>
        simp only [Bool.false_eq_true, false_iff, false_implies, and_true, List.mem_cons, forall_eq_or_imp, not_and] at h1 ⊢
        exact fun h => absurd h h1
      | true =>
        simp only [true_iff, forall_const] at h1 h2
        obtain ⟨i1, i2⟩ := ih (j + 1) vs' res'
        simp only
        refine ⟨?_, fun h => ?_⟩
        · rw [i1]
          simp [h1]
        · rw [i2 h, h2]
          simp [List.mapIdx_cons, Nat.add_assoc, Nat.add_comm 1]

theorem visit_spec (p : Path) (loc : Loc) (i : Nat) (d : Data) (vs : Visited) (res : Path) :
    ((visit p loc i d vs res).1 = true ↔ Resolves p d) ∧
    ((visit p loc i d vs res).1 = true → (visit p loc i d vs res).2.1.map (·.1) = vs.map (·.1) ++ (locs p d).map (loc ++ ·)) := by
  induction p generalizing loc i d vs res with
  | nil => simp [visit, Resolves, locs]
  | cons s p ih =>
    cases s with
    | key k =>
      cases d with
      | dict kvs =>
        simp only [visit, Resolves, locs]
        cases hk : lookupKey k kvs with
        | none => simp
        | some x =>
          obtain ⟨h1, h2⟩ := ih (loc ++ [.key k]) (i + 1) x vs (res ++ [.key k])
          refine ⟨by simpa using h1, fun h => ?_⟩
          rw [h2 h]
          simp [Function.comp_def]
      | _ => simp [visit, Resolves]
    | idx n =>
      cases d with
      | list xs =>
        simp only [visit, Resolves, locs]
        by_cases hn : n = wildcard
        · simp only [if_pos hn]
          have key := visitAll_spec (fun j x vs res => visit p (loc ++ [.idx j]) 0 x vs res) (Resolves p)
            (fun j x => (locs p x).map (Seg.idx j :: ·)) loc (fun j x vs res => by
              obtain ⟨h1, h2⟩ := ih (loc ++ [.idx j]) 0 x vs res
              refine ⟨h1, fun h => ?_⟩
              rw [h2 h]
              simp [Function.comp_def]) xs 0 vs (res ++ [.idx n])
          cases hv : visitAll (fun j x vs res => visit p (loc ++ [.idx j]) 0 x vs res) 0 xs vs (res ++ [.idx n]) with
          | mk b r =>
            obtain ⟨vs', res'⟩ := r
            rw [hv] at key
            cases b with
            | false => exact ⟨key.1, fun h => by cases h⟩
            | true =>
              refine ⟨key.1, fun _ => ?_⟩
              rw [key.2 rfl]
              simp
        · simp only [if_neg hn]
          cases hx : xs[n]? with
          | none => simp
          | some x =>
            obtain ⟨h1, h2⟩ := ih (loc ++ [.idx n]) (i + 1) x vs (res ++ [.idx n])
            refine ⟨by simpa using h1, fun h => ?_⟩
            rw [h2 h]
            simp [Function.comp_def]
      | _ => simp [visit, Resolves]

theorem mem_locs {p : Path} {d : Data} {l : Loc} : l ∈ locs p d ↔ Names p d l := by
  induction p generalizing d l with
  | nil =>
    simp only [locs, List.mem_singleton]
    constructor
    · rintro rfl; exact .here d
    · intro h; cases h; rfl
  | cons s p ih =>
    cases s with
    | key k =>
      cases d with
      | dict kvs =>
        simp only [locs]
        cases hk : lookupKey k kvs with
        | none =>
          constructor
          · intro h; cases h
          · intro h; cases h with | key h1 _ => rw [hk] at h1; cases h1
        | some x =>
          simp only [List.mem_map]
          constructor
          · rintro ⟨m, hm, rfl⟩; exact .key hk (ih.mp hm)
          · intro h
            cases h with
            | key h1 h2 => rw [hk] at h1; cases h1; exact ⟨_, ih.mpr h2, rfl⟩
      | _ =>
        constructor
        · intro h; cases h
        · intro h; cases h
    | idx n =>
      cases d with
      | list xs =>
        simp only [locs]
        by_cases hn : n = wildcard
        · subst hn
          simp only [if_true, List.mem_flatten, List.mem_mapIdx]
          constructor
          · rintro ⟨_, ⟨j, hj, rfl⟩, h⟩
            obtain ⟨m, hm, rfl⟩ := List.mem_map.mp h
            exact .all (List.getElem?_eq_getElem hj) (ih.mp hm)
          · intro h
            cases h with
            | idx h0 => exact absurd rfl h0
            | @all _ _ j x _ h1 h2 =>
              obtain ⟨hj, rfl⟩ := List.getElem?_eq_some_iff.mp h1
              exact ⟨_, ⟨j, hj, rfl⟩, List.mem_map.mpr ⟨_, ih.mpr h2, rfl⟩⟩
        · simp only [if_neg hn]
          cases hx : xs[n]? with
          | none =>
            constructor
            · intro h; cases h
            · intro h
              cases h with
              | idx _ h1 _ => rw [hx] at h1; cases h1
              | all => exact absurd rfl hn
          | some x =>
            simp only [List.mem_map]
            constructor
            · rintro ⟨m, hm, rfl⟩; exact .idx hn hx (ih.mp hm)
            · intro h
              cases h with
              | idx _ h1 h2 => rw [hx] at h1; cases h1; exact ⟨_, ih.mpr h2, rfl⟩
              | all => exact absurd rfl hn
      | _ =>
        constructor
        · intro h; cases h
        · intro h; cases h

theorem nodup_locs (p : Path) (d : Data) : (locs p d).Nodup := by
  have inj : ∀ (s : Seg) (ls : List Loc), ls.Nodup → (ls.map (s :: ·)).Nodup := by
    intro s ls h
    rw [List.nodup_iff_pairwise_ne, List.pairwise_map]
    exact (List.nodup_iff_pairwise_ne.mp h).imp fun h e => h (List.cons.inj e).2
  induction p generalizing d with
  | nil => simp [locs]
  | cons s p ih =>
    cases s with
    | key k =>
      simp only [locs]
      split
      · split
        · exact inj _ _ (ih _)
        · exact List.nodup_nil
      · exact List.nodup_nil
    | idx n =>
      simp only [locs]
      split
      · next xs =>
        split
        · rw [List.nodup_iff_pairwise_ne, List.pairwise_flatten]
          constructor
          · intro l hl
            obtain ⟨j, hj, rfl⟩ := List.mem_mapIdx.mp hl
            exact inj _ _ (ih _)
          · rw [List.pairwise_iff_getElem]
            intro a b ha hb hab
            simp only [List.getElem_mapIdx]
            intro x hx y hy e
            obtain ⟨x', -, rfl⟩ := List.mem_map.mp hx
            obtain ⟨y', -, rfl⟩ := List.mem_map.mp hy
            have := (Seg.idx.inj (List.cons.inj e).1)
            omega
        · split
          · exact inj _ _ (ih _)
          · exact List.nodup_nil
      · exact List.nodup_nil

theorem visitPaths_spec (ps : List Path) (d : Data) (vs : Visited) :
    (∀ vs', visitPaths ps d vs = some vs' → (∀ p ∈ ps, Resolves p d) ∧
      vs'.map (·.1) = vs.map (·.1) ++ ps.flatMap fun p => locs p d) ∧
    (visitPaths ps d vs = none → ∃ p ∈ ps, ¬ Resolves p d) := by
  induction ps generalizing vs with
  | nil => simp [visitPaths]
  | cons p ps ih =>
    obtain ⟨h1, h2⟩ := visit_spec p [] 0 d vs []
    simp only [visitPaths]
    cases hv : visit p [] 0 d vs [] with
    | mk b r =>
      obtain ⟨vs1, res⟩ := r
      rw [hv] at h1 h2
      cases b with
      | false =>
        refine ⟨fun _ h => (by cases h), fun _ => ⟨p, by simp, fun h => ?_⟩⟩
        have := h1.mpr h
        cases this
      | true =>
        obtain ⟨i1, i2⟩ := ih vs1
        refine ⟨fun vs' h => ?_, fun h => ?_⟩
        · obtain ⟨j1, j2⟩ := i1 vs' h
          refine ⟨by simpa using ⟨h1.mp rfl, j1⟩, ?_⟩
          rw [j2, h2 rfl]
          simp
        · obtain ⟨q, hq, hn⟩ := i2 h
          exact ⟨q, List.mem_cons_of_mem _ hq, hn⟩

end Fs2.Native
