import Verif.Native.SelectorMap

/-!
# The collater

Model of `collater` and `collate_op` (native/src/fairseq2n/data/collater.cc:78-375) and of `element_selector::matches`
(element_selector.cc:159-188).  Simplifications: a tensor has one dimension and integer elements; a tensor with two dimensions is the
list of its rows.  `at::pad_sequence` and `at::stack` are modelled by what their documentation says.
-/

namespace Fs2.Native

/-- `collate_options`. -/
structure CollateOpts where
  padValue : Option Int := none
  multiple : Nat := 1

/-- `collater`: the default options and the overrides. -/
structure Collater where
  opts : CollateOpts
  overrides : List (List Path × CollateOpts)

/-- The constructor's checks (collater.cc:349-360). -/
def Collater.Valid (c : Collater) : Prop :=
  (c.opts.multiple > 1 → c.opts.padValue ≠ none) ∧ ∀ o ∈ c.overrides, o.2.multiple > 1 → o.2.padValue ≠ none

/-- `element_selector::matches` for one path (element_selector.cc:162-185). -/
def matchesPath : Path → Path → Bool
  | [], [] => true
  | s1 :: p, s2 :: q =>
    (s1 = s2 || match s1, s2 with
      | .idx n, .idx _ => n = wildcard
      | _, _ => false) && matchesPath p q
  | _, _ => false

/-- `get_options_for_current_path` (collater.cc:282-291). -/
def Collater.optsFor (c : Collater) (path : Path) : CollateOpts :=
  match c.overrides.find? fun o => o.1.any fun p => matchesPath p path with
  | some o => o.2
  | none => c.opts

/-! ## Padding -/

def longest (ts : List (List Int)) : Nat := (ts.map List.length).foldr max 0

/-- `at::pad_sequence(tensors, batch_first=True, pad_value)`. -/
def padSequence (pad : Int) (ts : List (List Int)) : List (List Int) :=
  ts.map fun t => t ++ List.replicate (longest ts - t.length) pad

structure Padded where
  seqs : List (List Int)
  lens : List Nat
  ragged : Bool

/-- The comparison with the element before (collater.cc:323-333). -/
def neighboursDiffer : List Nat → Bool
  | a :: b :: l => a ≠ b || neighboursDiffer (b :: l)
  | _ => false

/-- `pad_tensors` (collater.cc:293-347). -/
def padTensors (pad : Int) (multiple : Nat) (ts : List (List Int)) : Padded :=
  let tmp := padSequence pad ts
  let width := longest ts
  -- collater.cc:305-316
  let more := if multiple > 1 ∧ width % multiple > 0 then multiple - width % multiple else 0
  let seqs := tmp.map (· ++ List.replicate more pad)
  let lens := ts.map List.length
  -- collater.cc:321-338
  let ragged := neighboursDiffer lens
  let ragged := if ragged = false then
      match lens with
      | l :: _ => l ≠ width + more
      | [] => false
    else ragged
  ⟨seqs, lens, ragged⟩

def Padded.toData (p : Padded) : Data :=
  .dict [("is_ragged", .bool p.ragged), ("seqs", .list (p.seqs.map .tensor)), ("seq_lens", .list (p.lens.map fun n : Nat => .int (Int.ofNat n)))]

/-! ## Collating -/

/-- `data_type`. -/
inductive Kind where
  | bool | int | num | str | tensor | list | dict
deriving DecidableEq

def kind : Data → Kind
  | .bool _ => .bool
  | .int _ => .int
  | .num _ => .num
  | .str _ => .str
  | .tensor _ => .tensor
  | .list _ => .list
  | .dict _ => .dict

def cannotCollate : Err := ⟨false, "The bucket items do not have the same structure."⟩

/-- `visit_bucket_items` (collater.cc:239-259): the elements of all items but the first at the current path, which must be of the
given type. -/
def others (path : Path) (k : Kind) : List Data → Except Err (List Data)
  | [] => .ok []
  | b :: bs =>
    match nodeAt path b with
    | none => .error cannotCollate
    | some x =>
      if kind x ≠ k then .error cannotCollate
      else match others path k bs with
        | .error e => .error e
        | .ok xs => .ok (x :: xs)

/-- `collate_op::collate(at::Tensor &)` after the tensors have been collected (collater.cc:199-213). -/
def collateTensors (c : Collater) (path : Path) (ts : List (List Int)) : Except Err Data :=
  match (c.optsFor path).padValue with
  | some pad => .ok (padTensors pad (c.optsFor path).multiple ts).toData
  | none =>
    match ts with
    | t :: ts' => if ts'.all fun s => s.length = t.length then .ok (.list (ts.map .tensor)) else .error cannotCollate
    | [] => .error cannotCollate

def tensorOf : Data → List Int
  | .tensor t => t
  | _ => []

/-- Data that is neither a list nor a dictionary (collater.cc:179-237); `rest` are the items but the first. -/
def collateLeaf (c : Collater) (rest : List Data) (path : Path) (d : Data) : Except Err Data :=
  match others path (kind d) rest with
  | .error e => .error e
  | .ok xs =>
    match d with
    | .tensor t => collateTensors c path (t :: xs.map tensorOf)
    | d => .ok (.list (d :: xs))

def sizeOfData : Data → Nat
  | .list xs => xs.length
  | .dict kvs => kvs.length
  | _ => 0

/-- Lists and dictionaries must have the same size in all items (collater.cc:110-123, 148-161). -/
def checkSizes (rest : List Data) (path : Path) (d : Data) : Except Err Unit :=
  match others path (kind d) rest with
  | .error e => .error e
  | .ok xs => if xs.all fun x => sizeOfData x = sizeOfData d then .ok () else .error cannotCollate

mutual
/-- `collate_current_path` (collater.cc:85-177). -/
def collateAt (c : Collater) (rest : List Data) (path : Path) : Data → Except Err Data
  | .list xs =>
    match checkSizes rest path (.list xs) with
    | .error e => .error e
    | .ok _ =>
      match collateList c rest path 0 xs with
      | .error e => .error e
      | .ok ys => .ok (.list ys)
  | .dict kvs =>
    match checkSizes rest path (.dict kvs) with
    | .error e => .error e
    | .ok _ =>
      match collateDict c rest path kvs with
      | .error e => .error e
      | .ok ys => .ok (.dict ys)
  | .bool b => collateLeaf c rest path (.bool b)
  | .int i => collateLeaf c rest path (.int i)
  | .num q => collateLeaf c rest path (.num q)
  | .str s => collateLeaf c rest path (.str s)
  | .tensor t => collateLeaf c rest path (.tensor t)

/-- collater.cc:129-138. -/
def collateList (c : Collater) (rest : List Data) (path : Path) : Nat → List Data → Except Err (List Data)
  | _, [] => .ok []
  | j, x :: xs =>
    match collateAt c rest (path ++ [.idx j]) x with
    | .error e => .error e
    | .ok y =>
      match collateList c rest path (j + 1) xs with
      | .error e => .error e
      | .ok ys => .ok (y :: ys)

/-- collater.cc:165-174. -/
def collateDict (c : Collater) (rest : List Data) (path : Path) : List (String × Data) → Except Err (List (String × Data))
  | [] => .ok []
  | (k, x) :: kvs =>
    match collateAt c rest (path ++ [.key k.toList]) x with
    | .error e => .error e
    | .ok y =>
      match collateDict c rest path kvs with
      | .error e => .error e
      | .ok ys => .ok ((k, y) :: ys)
end

/-- `collater::operator()` (collater.cc:362-375). -/
def Collater.call (c : Collater) (d : Data) : Except Err Data :=
  match d with
  | .list [] => .error ⟨false, "The bucket must contain at least one element, but is empty instead."⟩
  | .list (b :: bs) => collateAt c bs [] b
  | d => collateAt c [] [] d

/-! ## Lemmas about padding -/

theorem le_longest {ts : List (List Int)} {t : List Int} (h : t ∈ ts) : t.length ≤ longest ts := by
  induction ts with
  | nil => cases h
  | cons a ts ih =>
    simp only [longest, List.map_cons, List.foldr_cons] at ih ⊢
    rcases List.mem_cons.mp h with rfl | h
    · exact Nat.le_max_left _ _
    · exact Nat.le_trans (ih h) (Nat.le_max_right _ _)

theorem longest_mem {ts : List (List Int)} (h : ts ≠ []) : ∃ t ∈ ts, t.length = longest ts := by
  induction ts with
  | nil => exact absurd rfl h
  | cons a ts ih =>
    simp only [longest, List.map_cons, List.foldr_cons] at ih ⊢
    by_cases h0 : ts = []
    · subst h0; exact ⟨a, by simp, by simp⟩
    · obtain ⟨t, ht, e⟩ := ih h0
      rcases Nat.le_total a.length ((ts.map List.length).foldr max 0) with hle | hle
      · exact ⟨t, List.mem_cons_of_mem _ ht, by rw [Nat.max_eq_right hle]; exact e⟩
      · exact ⟨a, by simp, by rw [Nat.max_eq_left hle]⟩

theorem neighbours_iff (l : List Nat) : neighboursDiffer l = true ↔ ∃ a ∈ l, ∃ b ∈ l, a ≠ b := by
  induction l with
  | nil => simp [neighboursDiffer]
  | cons a l ih =>
    cases l with
    | nil => simp [neighboursDiffer]
    | cons b l =>
      simp only [neighboursDiffer, Bool.or_eq_true, ih, ne_eq, decide_eq_true_eq]
      constructor
      · rintro (h | ⟨x, hx, y, hy, h⟩)
        · exact ⟨a, by simp, b, by simp, h⟩
        · exact ⟨x, List.mem_cons_of_mem _ hx, y, List.mem_cons_of_mem _ hy, h⟩
      · rintro ⟨x, hx, y, hy, h⟩
        by_cases hab : a = b
        · subst hab
          refine .inr ⟨x, ?_, y, ?_, h⟩
          · rcases List.mem_cons.mp hx with rfl | hx
            · simp
            · exact hx
          · rcases List.mem_cons.mp hy with rfl | hy
            · simp
            · exact hy
        · exact .inl hab

/-! ## Lemmas about nested data -/

theorem others_ok {path : Path} {k : Kind} {bs xs : List Data} (h : others path k bs = .ok xs) :
    bs.map (nodeAt path) = xs.map some ∧ ∀ x ∈ xs, kind x = k := by
  induction bs generalizing xs with
  | nil => cases h; simp
  | cons b bs ih =>
    simp only [others] at h
    split at h
    · cases h
    · next x hx =>
      split at h
      · cases h
      · next hk =>
        split at h
        · cases h
        · next xs' h' =>
          cases h
          obtain ⟨h1, h2⟩ := ih h'
          refine ⟨by simp [hx, h1], ?_⟩
          intro y hy
          rcases List.mem_cons.mp hy with rfl | hy
          · exact Classical.not_not.mp hk
          · exact h2 y hy

theorem collateList_get {c : Collater} {rest : List Data} {path : Path} {xs ys : List Data} {j : Nat}
    (h : collateList c rest path j xs = .ok ys) : ys.length = xs.length ∧ ∀ n x, xs[n]? = some x →
      ∃ y, ys[n]? = some y ∧ collateAt c rest (path ++ [.idx (j + n)]) x = .ok y := by
  induction xs generalizing j ys with
  | nil => rw [collateList] at h; cases h; simp
  | cons a xs ih =>
    rw [collateList] at h
    split at h
    · cases h
    · next y hy =>
      split at h
      · cases h
      · next ys' h' =>
        cases h
        obtain ⟨h1, h2⟩ := ih h'
        refine ⟨by simp [h1], fun n x hx => ?_⟩
        cases n with
        | zero =>
          simp only [List.getElem?_cons_zero, Option.some.injEq] at hx
          subst hx
          exact ⟨y, rfl, hy⟩
        | succ n =>
          simp only [List.getElem?_cons_succ] at hx ⊢
          obtain ⟨z, hz, hc⟩ := h2 n x hx
          exact ⟨z, hz, by rw [show j + (n + 1) = j + 1 + n from by omega]; exact hc⟩

theorem collateDict_get {c : Collater} {rest : List Data} {path : Path} {xs ys : List (String × Data)}
    (h : collateDict c rest path xs = .ok ys) : ys.map (·.1) = xs.map (·.1) ∧ ∀ k x, lookupKey k xs = some x →
      ∃ y, lookupKey k ys = some y ∧ collateAt c rest (path ++ [.key k]) x = .ok y := by
  induction xs generalizing ys with
  | nil => rw [collateDict] at h; cases h; simp [lookupKey]
  | cons a xs ih =>
    obtain ⟨k₀, x₀⟩ := a
    rw [collateDict] at h
    split at h
    · cases h
    · next y hy =>
      split at h
      · cases h
      · next ys' h' =>
        cases h
        obtain ⟨h1, h2⟩ := ih h'
        refine ⟨by simp [h1], fun k x hx => ?_⟩
        simp only [lookupKey, List.find?_cons] at hx ⊢
        by_cases hk : k₀ = String.ofList k
        · subst hk
          simp only [decide_true, Option.map_some, Option.some.injEq] at hx ⊢
          subst hx
          exact ⟨y, rfl, by simpa using hy⟩
        · simp only [hk, decide_false] at hx ⊢
          exact h2 k x hx

/-- Neither a list nor a dictionary. -/
def isLeaf : Data → Bool
  | .list _ | .dict _ => false
  | _ => true

theorem collateAt_node {c : Collater} {rest : List Data} {l : Loc} {path : Path} {d out : Data}
    (h : collateAt c rest path d = .ok out) {x : Data} (hx : nodeAt l d = some x) :
    ∃ y, nodeAt l out = some y ∧ collateAt c rest (path ++ l) x = .ok y := by
  induction l generalizing path d out with
  | nil => cases hx; exact ⟨out, rfl, by simpa using h⟩
  | cons s l ih =>
    cases s with
    | key k =>
      cases d with
      | dict kvs =>
        simp only [nodeAt] at hx
        rw [collateAt] at h
        split at h
        · cases h
        · split at h
          · cases h
          · next ys hys =>
            cases h
            cases hk : lookupKey k kvs with
            | none => rw [hk] at hx; cases hx
            | some z =>
              rw [hk] at hx
              obtain ⟨y, h1, h2⟩ := (collateDict_get hys).2 k z hk
              obtain ⟨w, h3, h4⟩ := ih h2 hx
              refine ⟨w, by simp [nodeAt, h1, h3], by simpa using h4⟩
      | _ => cases hx
    | idx n =>
      cases d with
      | list xs =>
        simp only [nodeAt] at hx
        rw [collateAt] at h
        split at h
        · cases h
        · split at h
          · cases h
          · next ys hys =>
            cases h
            cases hk : xs[n]? with
            | none => rw [hk] at hx; cases hx
            | some z =>
              rw [hk] at hx
              obtain ⟨y, h1, h2⟩ := (collateList_get hys).2 n z hk
              rw [Nat.zero_add] at h2
              obtain ⟨w, h3, h4⟩ := ih h2 hx
              refine ⟨w, by simp [nodeAt, h1, h3], by simpa using h4⟩
      | _ => cases hx

theorem collateAt_leaf {c : Collater} {rest : List Data} {path : Path} {x : Data} (h : isLeaf x) :
    collateAt c rest path x = collateLeaf c rest path x := by
  cases x with
  | list => cases h
  | dict => cases h
  | _ => rw [collateAt]

end Fs2.Native
