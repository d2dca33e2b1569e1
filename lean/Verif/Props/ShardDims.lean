import Verif.Shard.ShardDims
import Verif.Nn.ModuleShare
import Verif.Props.FormatLoad

/-!
# C117: the dimensions of sharded parameters
-/

namespace Fs2.Props

open Fs2.Mod Fs2.Shard

variable {D : Type}

/-! ### Specification -/

/-- `key` is a name of the parameter `x`: a path to a module and a name in it, joined with dots. -/
def ParamAt (st : St D) (t : Tree) (key : String) (x : Nat) : Prop :=
  ∃ path s n, Leads t path s ∧ (n, x) ∈ st.params s.id ∧ key = fullName path n

/-- A module of the model says that the parameter `x` is sharded along the dimension `d`. -/
def Declares (decl : Nat → List (Nat × Nat)) (t : Tree) (x d : Nat) : Prop := ∃ s ∈ subs t, (x, d) ∈ decl s.id

/-- What PyTorch sees to: modules have no empty names. And modules do not contradict each other. -/
structure GoodDims (decl : Nat → List (Nat × Nat)) (t : Tree) : Prop where
  names : ∀ path s, Leads t path s → "" ∉ path
  agree : ∀ x d d', Declares decl t x d → Declares decl t x d' → d = d'

/-! ### Proofs -/

theorem append_ne_empty (a b : String) (h : a ≠ "") : a ++ b ≠ "" := by
  intro hc
  apply h
  have : (a ++ b).toList = "".toList := by rw [hc]
  rw [String.toList_append] at this
  apply String.toList_injective
  simp only [String.toList_empty, List.append_eq_nil_iff] at this ⊢
  exact this.1

theorem join_path (ks : List String) (n pre : String) (hp : pre ≠ "") :
    join (ks.foldl join pre) n = pre ++ ("." ++ fullName ks n) := by
  induction ks generalizing pre with
  | nil => simp only [List.foldl_nil, join, if_neg hp, fullName, String.append_assoc]
  | cons k ks ih =>
    simp only [List.foldl_cons]
    rw [ih (join pre k) (by rw [join, if_neg hp, String.append_assoc]; exact append_ne_empty _ _ hp)]
    simp only [join, if_neg hp, fullName, String.append_assoc]

theorem join_full (ks : List String) (n : String) (h : "" ∉ ks) : join (ks.foldl join "") n = fullName ks n := by
  match ks with
  | [] => simp [join, fullName]
  | k :: ks =>
    simp only [List.mem_cons, not_or] at h
    have hk : join "" k = k := by simp [join]
    rw [List.foldl_cons, hk, join_path ks n k (fun hc => h.1 hc.symm), fullName]

theorem leads_ids {t s : Tree} {path : List String} (h : Leads t path s) : s ∈ subs t := by
  induction h with
  | here t => exact mem_subs_self t
  | step hs hr ih =>
    rename_i i cs n ks s r
    have hmem : ∀ cs : Children, HasChild cs n s → s ∈ subsAll cs := by
      intro cs
      match cs with
      | .nil => intro h; cases h
      | .missing _ r => intro h; rw [subsAll]; exact subsAll_child r h
      | .child m t r =>
        intro h
        rw [subsAll]
        rcases h with ⟨-, rfl⟩ | h
        · exact List.mem_append_left _ (mem_subs_self _)
        · exact List.mem_append_right _ (subsAll_child r h)
    simp only [subs, List.mem_cons]
    exact .inr (subsAll_trans cs s r (hmem cs hs) ih)
where
  subsAll_child : ∀ (cs : Children) {n : String} {s : Tree}, HasChild cs n s → s ∈ subsAll cs
    | .nil, _, _, h => by cases h
    | .missing _ r, _, _, h => by rw [subsAll]; exact subsAll_child r h
    | .child m t r, _, _, h => by
      rw [subsAll]
      rcases h with ⟨-, rfl⟩ | h
      · exact List.mem_append_left _ (mem_subs_self _)
      · exact List.mem_append_right _ (subsAll_child r h)

/-- What `named_parameters()` gives are names of the parameters. -/
theorem slots_sound (st : St D) {t : Tree} (hne : ∀ path s, Leads t path s → "" ∉ path) {e : String × Nat}
    (h : e ∈ allSlots st.params t) : ParamAt st t e.1 e.2 := by
  obtain ⟨⟨name, o⟩, h1, h2⟩ := List.mem_flatMap.1 h
  cases o with
  | none => cases h2
  | some i =>
    obtain ⟨⟨n, x⟩, h3, rfl⟩ := List.mem_map.1 h2
    obtain ⟨ks, s, h4, rfl, rfl⟩ := visit_names false "" t [] name i h1
    exact ⟨ks, s, n, h4, h3, join_full ks n (hne ks s h4)⟩

theorem named_sound (st : St D) {t : Tree} (hne : ∀ path s, Leads t path s → "" ∉ path) {e : String × Nat}
    (h : e ∈ named st.params t) : ParamAt st t e.1 e.2 := by
  rw [named_eq] at h
  rcases dedup_sub _ _ _ h with h | h
  · cases h
  · exact slots_sound st hne h

theorem named_has (st : St D) {t : Tree} (hc : Consistent t) {key : String} {x : Nat} (h : ParamAt st t key x) :
    ∃ key', (key', x) ∈ named st.params t := by
  obtain ⟨path, s, n, h1, h2, -⟩ := h
  obtain ⟨key', h3⟩ := mem_allSlots (which := st.params) hc (List.mem_map_of_mem (leads_ids h1)) h2
  have := dedup_has _ [] _ h3
  rw [← named_eq] at this
  obtain ⟨⟨k, y⟩, h4, h5⟩ := List.mem_map.1 this
  cases h5
  exact ⟨k, h4⟩

theorem foldl_first (l r : List (Nat × Nat)) (x : Nat) :
    (l.foldl (fun r s => if s.1 ∈ r.map (·.1) then r else r ++ [s]) r).lookup x = (r.lookup x).or (l.lookup x) := by
  induction l generalizing r with
  | nil => simp
  | cons s l ih =>
    obtain ⟨a, d⟩ := s
    rw [List.foldl_cons, ih]
    by_cases hx : x = a
    · subst hx
      by_cases hm : x ∈ r.map (·.1)
      · rw [if_pos hm]
        cases hl : r.lookup x with
        | some v => rfl
        | none =>
          rw [List.lookup_eq_none_iff] at hl
          obtain ⟨p, hp, rfl⟩ := List.mem_map.1 hm
          exact absurd (hl p hp) (by simp)
      · rw [if_neg hm, List.lookup_append, List.lookup_cons, List.lookup_cons]
        simp only [BEq.rfl]
        cases r.lookup x <;> rfl
    · have hb : (x == a) = false := by simpa using hx
      rw [List.lookup_cons, hb]
      split
      · rfl
      · rw [List.lookup_append, List.lookup_cons, hb]
        simp

theorem collect_lookup (decl : Nat → List (Nat × Nat)) {t : Tree} (hc : Consistent t) (x d : Nat)
    (hagree : ∀ d d', Declares decl t x d → Declares decl t x d' → d = d') :
    (collectDims decl t).lookup x = some d ↔ Declares decl t x d := by
  have hall : ∀ d, (x, d) ∈ ((visit false "" t []).1.flatMap fun e =>
      match e.2 with
      | none => []
      | some m => decl m) ↔ Declares decl t x d := by
    intro d
    constructor
    · intro h
      obtain ⟨⟨name, o⟩, h1, h2⟩ := List.mem_flatMap.1 h
      cases o with
      | none => cases h2
      | some i =>
        have : i ∈ found (visit false "" t []).1 := List.mem_filterMap.2 ⟨_, h1, rfl⟩
        rw [visit_all t hc] at this
        obtain ⟨s, hs, rfl⟩ := List.mem_map.1 this
        exact ⟨s, hs, h2⟩
    · rintro ⟨s, hs, h⟩
      have : s.id ∈ found (visit false "" t []).1 := (visit_all t hc false "" s.id).2 (List.mem_map_of_mem hs)
      obtain ⟨⟨name, o⟩, h1, h2⟩ := List.mem_filterMap.1 this
      simp only at h2
      subst h2
      exact List.mem_flatMap.2 ⟨_, h1, h⟩
  rw [collectDims]
  simp only [foldl_first, List.lookup_nil, Option.none_or]
  constructor
  · intro h
    exact (hall d).1 (lookup_mem h)
  · intro h
    have hm := (hall d).2 h
    cases hl : List.lookup x ((visit false "" t []).1.flatMap fun e =>
      match e.2 with
      | none => []
      | some m => decl m) with
    | none => exact absurd (List.lookup_eq_none_iff.1 hl _ hm) (by simp)
    | some v => rw [hagree v d ((hall v).1 (lookup_mem hl)) h]
where
  lookup_mem {x d : Nat} {l : List (Nat × Nat)} (h : l.lookup x = some d) : (x, d) ∈ l := by
    induction l with
    | nil => cases h
    | cons s l ih =>
      obtain ⟨a, b⟩ := s
      rw [List.lookup_cons] at h
      split at h
      · next hb => cases h; rw [show x = a by simpa using hb]; exact List.mem_cons_self
      · exact List.mem_cons_of_mem _ (ih h)

theorem param_named {st : St D} {t : Tree} {key : String} {x : Nat} (h : ParamAt st t key x) :
    NamedAs st (fun _ _ => true) t key x := by
  obtain ⟨path, s, n, h1, h2, h3⟩ := h
  exact ⟨path, s, n, h1, .inl h2, h3⟩

theorem key_once {st : St D} {np : Nat → String → Bool} {t : Tree} (hn : GoodNames st t) {key : String} {x y : Nat}
    (h : NamedAs st np t key x) (h' : NamedAs st np t key y) : x = y := by
  have e : ∀ z, NamedAs st np t key z → (key, z) ∈ stateDict st np "" t := by
    rintro z ⟨path, s, n, h1, h2, h3⟩
    exact (mem_stateDict ..).2 ⟨path, s, n, h1, h2, by rw [h3]; simp⟩
  have hnd := stateDict_nodup st np t (fun i cs hi => ⟨hn.distinct i cs hi, hn.dots i cs hi⟩) t "" (mem_subs_self t)
  have h1 := e x h
  have h2 := e y h'
  revert h1 h2 hnd
  generalize stateDict st np "" t = l
  intro hnd h1 h2
  induction l with
  | nil => cases h1
  | cons a l ih =>
    simp only [List.map_cons, List.nodup_cons] at hnd
    rcases List.mem_cons.1 h1 with h1 | h1 <;> rcases List.mem_cons.1 h2 with h2 | h2
    · rw [← h1] at h2; cases h2; rfl
    · exact absurd (List.mem_map.2 ⟨_, h2, by rw [← h1]⟩) hnd.1
    · exact absurd (List.mem_map.2 ⟨_, h1, by rw [← h2]⟩) hnd.1
    · exact ih hnd.2 h1 h2

theorem str_lookup_mem {d : Nat} {key : String} {l : List (String × Nat)} (h : l.lookup key = some d) : (key, d) ∈ l := by
  induction l with
  | nil => cases h
  | cons s l ih =>
    obtain ⟨a, b⟩ := s
    rw [List.lookup_cons] at h
    split at h
    · next hb => cases h; rw [show key = a by simpa using hb]; exact List.mem_cons_self
    · exact List.mem_cons_of_mem _ (ih h)

/-- What is found under a name. -/
theorem dims_iff (decl : Nat → List (Nat × Nat)) (st : St D) {t : Tree} (hc : Consistent t) (hn : GoodNames st t)
    (hg : GoodDims decl t) (key : String) (d : Nat) :
    shardDims decl st t key = some d ↔ ∃ x, (key, x) ∈ named st.params t ∧ Declares decl t x d := by
  have hmem : ∀ key d, (key, d) ∈ getShardDims decl st t ↔ ∃ x, (key, x) ∈ named st.params t ∧ Declares decl t x d := by
    intro key d
    rw [getShardDims]
    simp only [List.mem_filterMap, Option.map_eq_some_iff]
    constructor
    · rintro ⟨⟨k, x⟩, h1, d', h2, h3⟩
      cases h3
      exact ⟨x, h1, (collect_lookup decl hc x d (hg.agree x)).1 h2⟩
    · rintro ⟨x, h1, h2⟩
      exact ⟨(key, x), h1, d, (collect_lookup decl hc x d (hg.agree x)).2 h2, rfl⟩
  constructor
  · intro h
    exact (hmem key d).1 (str_lookup_mem h)
  · rintro ⟨x, h1, h2⟩
    have hm := (hmem key d).2 ⟨x, h1, h2⟩
    cases hl : shardDims decl st t key with
    | none => exact absurd (List.lookup_eq_none_iff.1 hl _ hm) (by simp)
    | some d' =>
      obtain ⟨y, h3, h4⟩ := (hmem key d').1 (str_lookup_mem hl)
      have hx1 : ParamAt st t key x := named_sound st hg.names h1
      have hy1 : ParamAt st t key y := named_sound st hg.names h3
      have hxy : x = y := key_once hn (param_named hx1) (param_named hy1)
      subst hxy
      rw [hg.agree x d' d h4 h2]

theorem dedup_once : ∀ (l r : List (String × Nat)), (r.map (·.2)).Nodup → ((dedup r l).map (·.2)).Nodup
  | [], r, h => h
  | s :: l, r, h => by
    rw [dedup_cons]
    refine dedup_once l _ ?_
    split
    · exact h
    · next hm =>
      rw [List.map_append, List.nodup_append]
      refine ⟨h, by simp, ?_⟩
      intro a ha b hb hab
      simp only [List.map_cons, List.map_nil, List.mem_singleton] at hb
      exact hm (hb ▸ hab ▸ ha)

/-! ### C117 -/

/-- **Nothing else.** A name for which there is a dimension is a name of a parameter, and a module says that this
parameter is sharded along this dimension. -/
theorem C117_sound (decl : Nat → List (Nat × Nat)) (st : St D) (t : Tree) (hc : Consistent t) (hn : GoodNames st t)
    (hg : GoodDims decl t) (key : String) (d : Nat) (h : shardDims decl st t key = some d) :
    ∃ x, ParamAt st t key x ∧ Declares decl t x d := by
  obtain ⟨x, h1, h2⟩ := (dims_iff decl st hc hn hg key d).1 h
  exact ⟨x, named_sound st hg.names h1, h2⟩

/-- **Each parameter once.** If a module says that a parameter is sharded, then its dimension is there under exactly one
of the names that the parameter has. -/
theorem C117_once (decl : Nat → List (Nat × Nat)) (st : St D) (t : Tree) (hc : Consistent t) (hn : GoodNames st t)
    (hg : GoodDims decl t) (x d : Nat) (hx : ∃ key, ParamAt st t key x) (hd : Declares decl t x d) :
    ∃ key, ParamAt st t key x ∧ shardDims decl st t key = some d ∧
      ∀ key', ParamAt st t key' x → key' ≠ key → shardDims decl st t key' = none := by
  obtain ⟨key₀, hx⟩ := hx
  obtain ⟨key, h1⟩ := named_has st hc hx
  refine ⟨key, named_sound st hg.names h1, (dims_iff decl st hc hn hg key d).2 ⟨x, h1, hd⟩, ?_⟩
  intro key' h2 hne
  cases h : shardDims decl st t key' with
  | none => rfl
  | some d' =>
    obtain ⟨y, h3, h4⟩ := (dims_iff decl st hc hn hg key' d').1 h
    have hy : ParamAt st t key' y := named_sound st hg.names h3
    have hxy : x = y := key_once hn (param_named h2) (param_named hy)
    subst hxy
    have hnd := dedup_once (allSlots st.params t) [] (by simp)
    rw [← named_eq] at hnd
    exfalso
    apply hne
    revert h1 h3 hnd
    generalize named st.params t = l
    intro h1 h3 hnd
    induction l with
    | nil => cases h1
    | cons a l ih =>
      simp only [List.map_cons, List.nodup_cons] at hnd
      rcases List.mem_cons.1 h1 with h1 | h1 <;> rcases List.mem_cons.1 h3 with h3 | h3
      · rw [← h1] at h3; cases h3; rfl
      · exact absurd (List.mem_map.2 ⟨_, h3, by rw [← h1]⟩) hnd.1
      · exact absurd (List.mem_map.2 ⟨_, h1, by rw [← h3]⟩) hnd.1
      · exact ih h1 h3 hnd.2

/-- **Exactly the sharded parameters.** If sharded parameters have one name each, the dimension of a name is the one that
a module gives for the parameter with this name, and there is none for the others. Missing for the full property: sharded
parameters with several names, see `C117_tied_negation`. -/
theorem C117_exact_partial (decl : Nat → List (Nat × Nat)) (st : St D) (t : Tree) (hc : Consistent t) (hn : GoodNames st t)
    (hg : GoodDims decl t)
    (hone : ∀ x d key key', Declares decl t x d → ParamAt st t key x → ParamAt st t key' x → key = key')
    (key : String) (d : Nat) :
    shardDims decl st t key = some d ↔ ∃ x, ParamAt st t key x ∧ Declares decl t x d := by
  constructor
  · exact C117_sound decl st t hc hn hg key d
  · rintro ⟨x, h1, h2⟩
    obtain ⟨key', h3, h4, -⟩ := C117_once decl st t hc hn hg x d ⟨key, h1⟩ h2
    rw [hone x d key key' h2 h1 h3]
    exact h4

/-- **Into the model.** A checkpoint, of any format and any number of tensor parallel ranks, holds the parameters of a
model, sharded as the modules of the model say. Then a process that passes the dimensions of `get_shard_dims` to the loader
loads the model, and has under every name its shard of what was saved. Missing for the full property: sharded parameters
with several names, and what is missing in `C115_model_partial`. -/
theorem C117_model_partial {α : Type} (conv : StateFile α → StateFile α) (params : List (Param α))
    (dims : String → Option Nat) (p : Place) (disk : Disk α) (hd : SavedAs conv params dims p.tpSize disk)
    (hs : Splittable params dims p.tpSize) (hpp : p.ppRank < p.ppSize) (hrank : p.tpRank < p.tpSize)
    (c : Copying (Mat α)) (hcopy : GoodCopy c) (nonPersistent : Nat → String → Bool) (decl : Nat → List (Nat × Nat))
    (t : Tree) (st : St (Mat α)) (hc : Consistent t) (hn : GoodNames st t) (hg : GoodDims decl t)
    (hdims : ∀ key d, dims key = some d ↔ ∃ x, ParamAt st t key x ∧ Declares decl t x d)
    (hnames : ∀ key, (∃ x, NamedAs st nonPersistent t key x) ↔ key ∈ params.map (·.key))
    (hshape : ∀ q ∈ params, ∀ x m, NamedAs st nonPersistent t q.key x → PartOf (dims q.key) p.tpSize p.tpRank q m →
      Fits c st x m)
    (hone : ∀ x d key key', Declares decl t x d → ParamAt st t key x → ParamAt st t key' x → key = key')
    (hobj : ∀ q ∈ params, ∀ r ∈ params, q.obj = r.obj → ∀ x, NamedAs st nonPersistent t q.key x →
      NamedAs st nonPersistent t r.key x)
    (htied : ∀ q ∈ params, ∀ r ∈ params, ∀ x, NamedAs st nonPersistent t q.key x → NamedAs st nonPersistent t r.key x →
      q.full = r.full ∧ ((∃ y, ParamAt st t q.key y) ↔ ∃ y, ParamAt st t r.key y)) :
    ∃ out, loadCheckpoint conv disk p (shardDims decl st t) = .ok out ∧
      (setModelState c nonPersistent t out st).1 = .ok () ∧
      ∀ q ∈ params, ∃ x y m, NamedAs st nonPersistent t q.key x ∧ st.tensors[x]? = some y ∧
        PartOf (dims q.key) p.tpSize p.tpRank q m ∧
        (setModelState c nonPersistent t out st).2.tensors[x]? = some { y with data := c.copy y.data m } := by
  have heq : shardDims decl st t = dims := by
    funext key
    have h1 := C117_exact_partial decl st t hc hn hg hone key
    cases h : shardDims decl st t key with
    | some d => rw [(hdims key d).2 ((h1 d).1 h)]
    | none =>
      cases h' : dims key with
      | none => rfl
      | some d => rw [(h1 d).2 ((hdims key d).1 h')] at h; cases h
  rw [heq]
  refine C115_model_partial conv params dims p disk hd hs hpp hrank c hcopy nonPersistent t st hn hnames hshape hobj ?_
  intro q hq r hr x hx hx'
  refine ⟨(htied q hq r hr x hx hx').1, ?_⟩
  have lift : ∀ {key y}, ParamAt st t key y → NamedAs st nonPersistent t key y := by
    rintro key y ⟨path, s, n, h1, h2, h3⟩
    exact ⟨path, s, n, h1, .inl h2, h3⟩
  have hk : ∀ q r : Param α, NamedAs st nonPersistent t q.key x → NamedAs st nonPersistent t r.key x →
      ((∃ y, ParamAt st t q.key y) → ∃ y, ParamAt st t r.key y) → ∀ d, dims q.key = some d → dims r.key = some d := by
    intro q r hx hx' hpar d h
    obtain ⟨y, h1, h2⟩ := (hdims _ _).1 h
    have e1 := key_once hn (lift h1) hx
    obtain ⟨z, h3⟩ := hpar ⟨y, h1⟩
    have e2 := key_once hn (lift h3) hx'
    subst e1; subst e2
    exact (hdims _ _).2 ⟨_, h3, h2⟩
  have hpar := (htied q hq r hr x hx hx').2
  cases h : dims q.key with
  | some d => rw [hk q r hx hx' hpar.1 d h]
  | none =>
    cases h' : dims r.key with
    | none => rfl
    | some d => rw [hk r q hx' hx hpar.2 d h'] at h; cases h

/-! ### Tied parameters -/

private def tieTree : Tree := .node 0 (.child "a" (.node 1 .nil) (.child "b" (.node 2 .nil) .nil))

/-- An embedding and a projection that share their weight of `rows` rows. -/
private def tieState (rows : Nat) : St (Mat Nat) where
  tensors := [⟨⟨1, List.replicate rows [0]⟩, none, true, true⟩]
  params := fun m => if m = 1 ∨ m = 2 then [("w", 0)] else []
  buffers := fun _ => []

/-- The embedding is sharded over its rows; the projection is not a sharded module. -/
private def tieDecl (m : Nat) : List (Nat × Nat) := if m = 1 then [(0, 0)] else []

/-- What two tensor parallel ranks have written. -/
private def tieDisk : Disk Nat :=
  .directory (dirOf [[[[("a.w", .tensor 0 ⟨1, [[1]]⟩), ("b.w", .tensor 1 ⟨1, [[1]]⟩)]],
    [[("a.w", .tensor 0 ⟨1, [[2]]⟩), ("b.w", .tensor 1 ⟨1, [[2]]⟩)]]]]) [] []

/-- **Tied parameters.** The dimension of a sharded parameter with two names is there under the first one only. A
checkpoint that two ranks have written, in which each of the names has the shards, can be loaded by two ranks; a single
process that is to load the whole model from it takes what the first rank has written for the second name, and refuses the
checkpoint. -/
theorem C117_tied_negation : ∃ (decl : Nat → List (Nat × Nat)) (t : Tree) (disk : Disk Nat) (st st2 : St (Mat Nat)),
    (∃ x, ParamAt st t "a.w" x ∧ ParamAt st t "b.w" x ∧ Declares decl t x 0) ∧
    shardDims decl st t "a.w" = some 0 ∧ shardDims decl st t "b.w" = none ∧
    loadCheckpoint id disk ⟨1, 0, 1, 0⟩ (shardDims decl st t) = .ok [("a.w", ⟨1, [[1], [2]]⟩), ("b.w", ⟨1, [[1]]⟩)] ∧
    (∃ e, (setModelState matCopy (fun _ _ => false) t [("a.w", ⟨1, [[1], [2]]⟩), ("b.w", ⟨1, [[1]]⟩)] st).1 = .error e) ∧
    (∃ out, loadCheckpoint id disk ⟨1, 0, 2, 1⟩ (shardDims decl st2 t) = .ok out ∧
      (setModelState matCopy (fun _ _ => false) t out st2).1 = .ok ()) := by
  refine ⟨tieDecl, tieTree, tieDisk, tieState 2, tieState 1, ⟨0, ?_, ?_, .node 1 .nil, by simp [tieTree, subs, subsAll], by
    simp [tieDecl, Tree.id]⟩, by decide +kernel, by decide +kernel, rfl, ⟨_, rfl⟩,
    ⟨[("a.w", ⟨1, [[2]]⟩), ("b.w", ⟨1, [[2]]⟩)], rfl, rfl⟩⟩
  · exact ⟨["a"], .node 1 .nil, "w", .step (.inl ⟨rfl, rfl⟩) (.here _), by simp [tieState, Tree.id], by decide +kernel⟩
  · exact ⟨["b"], .node 2 .nil, "w", .step (.inr (.inl ⟨rfl, rfl⟩)) (.here _), by simp [tieState, Tree.id], by decide +kernel⟩

/-! ### Cases -/

/-- On one of two ranks: a module with a sharded weight, of which the rank has one row, and one with a whole weight. -/
private def plainState : St (Mat Nat) where
  tensors := [⟨⟨2, [[0, 0]]⟩, none, true, true⟩, ⟨⟨1, [[0]]⟩, none, true, true⟩]
  params := fun m => if m = 1 then [("w", 0)] else if m = 2 then [("w", 1)] else []
  buffers := fun _ => []

private theorem tie_subs (s : Tree) (h : s ∈ subs tieTree) : s = tieTree ∨ s = .node 1 .nil ∨ s = .node 2 .nil := by
  simpa [tieTree, subs, subsAll] using h

private theorem tie_consistent : Consistent tieTree := by
  intro s hs s' hs' h
  rcases tie_subs s hs with rfl | rfl | rfl <;> rcases tie_subs s' hs' with rfl | rfl | rfl <;>
    first | rfl | (exact absurd h (by decide))

private theorem tie_declares (x d : Nat) : Declares tieDecl tieTree x d ↔ x = 0 ∧ d = 0 := by
  constructor
  · rintro ⟨s, hs, h⟩
    rcases tie_subs s hs with rfl | rfl | rfl
    · simp [tieDecl, tieTree, Tree.id] at h
    · simpa [tieDecl, Tree.id] using h
    · simp [tieDecl, Tree.id] at h
  · rintro ⟨rfl, rfl⟩
    exact ⟨.node 1 .nil, by simp [tieTree, subs, subsAll], by simp [tieDecl, Tree.id]⟩

private theorem tie_good : GoodDims tieDecl tieTree := by
  refine ⟨?_, ?_⟩
  · intro path s h
    cases h with
    | here => simp
    | step hs hr =>
      rcases hs with ⟨rfl, rfl⟩ | ⟨rfl, rfl⟩ | hs
      · cases hr with
        | here => simp
        | step hs _ => cases hs
      · cases hr with
        | here => simp
        | step hs _ => cases hs
      · cases hs
  · intro x d d' h h'
    rw [((tie_declares _ _).1 h).2, ((tie_declares _ _).1 h').2]

private theorem plain_names : GoodNames plainState tieTree := by
  have nodes : ∀ i cs, Tree.node i cs ∈ subs tieTree →
      (i = 0 ∧ childNames cs = ["a", "b"]) ∨ ((i = 1 ∨ i = 2) ∧ childNames cs = []) := by
    intro i cs h
    rcases tie_subs _ h with h | h | h <;> cases h <;> simp [childNames]
  refine ⟨?_, ?_, ?_⟩
  · intro i cs h
    rcases nodes i cs h with ⟨rfl, h'⟩ | ⟨rfl | rfl, h'⟩ <;> rw [h'] <;> simp [plainState]
  · intro i cs h
    rcases nodes i cs h with ⟨rfl, h'⟩ | ⟨rfl | rfl, h'⟩ <;> rw [h'] <;> simp [plainState]
  · intro i cs h
    rcases nodes i cs h with ⟨rfl, h⟩ | ⟨rfl | rfl, h⟩ <;> simp [plainState]

private theorem plain_named (np : Nat → String → Bool) (key : String) (x : Nat) :
    NamedAs plainState np tieTree key x ↔ (key = "a.w" ∧ x = 0) ∨ (key = "b.w" ∧ x = 1) := by
  have h1 : NamedAs plainState np tieTree key x ↔ (key, x) ∈ stateDict plainState np "" tieTree := by
    rw [mem_stateDict]
    simp only [NamedAs, String.empty_append]
  have h2 : stateDict plainState np "" tieTree = stateDict plainState (fun _ _ => false) "" tieTree := by
    simp [stateDict, stateDictAll, tieTree, plainState]
  rw [h1, h2, show stateDict plainState (fun _ _ => false) "" tieTree = [("a.w", 0), ("b.w", 1)] by decide +kernel]
  simp

private theorem plain_param (key : String) (x : Nat) :
    ParamAt plainState tieTree key x ↔ (key = "a.w" ∧ x = 0) ∨ (key = "b.w" ∧ x = 1) := by
  rw [← plain_named (fun _ _ => true)]
  refine ⟨param_named, ?_⟩
  rintro ⟨path, s, n, h1, h2 | ⟨h2, -⟩, h3⟩
  · exact ⟨path, s, n, h1, h2, h3⟩
  · cases h2

private theorem plain_once (x d : Nat) (key key' : String) (hd : Declares tieDecl tieTree x d)
    (h : ParamAt plainState tieTree key x) (h' : ParamAt plainState tieTree key' x) : key = key' := by
  obtain ⟨rfl, rfl⟩ := (tie_declares x d).1 hd
  rcases (plain_param _ _).1 h with ⟨rfl, -⟩ | ⟨-, h⟩
  · rcases (plain_param _ _).1 h' with ⟨rfl, -⟩ | ⟨-, h'⟩
    · rfl
    · cases h'
  · cases h

/-- The hypotheses of `C117_exact_partial`, and so of `C117_sound`, can be met. -/
example : shardDims tieDecl plainState tieTree "a.w" = some 0 ∧ shardDims tieDecl plainState tieTree "b.w" ≠ some 0 := by
  have h := C117_exact_partial tieDecl plainState tieTree tie_consistent plain_names tie_good plain_once
  refine ⟨(h "a.w" 0).2 ⟨0, (plain_param _ _).2 (.inl ⟨rfl, rfl⟩), (tie_declares _ _).2 ⟨rfl, rfl⟩⟩, ?_⟩
  intro hc
  obtain ⟨x, h1, h2⟩ := (h "b.w" 0).1 hc
  rcases (plain_param _ _).1 h1 with ⟨h1, -⟩ | ⟨-, rfl⟩
  · simp at h1
  · exact absurd ((tie_declares _ _).1 h2).1 (by decide)

/-- The hypotheses of `C117_once` can be met by a parameter with one name. -/
example : ∃ key, ParamAt plainState tieTree key 0 ∧ shardDims tieDecl plainState tieTree key = some 0 ∧
    ∀ key', ParamAt plainState tieTree key' 0 → key' ≠ key → shardDims tieDecl plainState tieTree key' = none :=
  C117_once tieDecl plainState tieTree tie_consistent plain_names tie_good 0 0
    ⟨"a.w", (plain_param _ _).2 (.inl ⟨rfl, rfl⟩)⟩ ((tie_declares _ _).2 ⟨rfl, rfl⟩)

private def plainParams : List (Param Nat) := [⟨"a.w", ⟨2, [[1, 2], [3, 4]]⟩, 3⟩, ⟨"b.w", ⟨1, [[9]]⟩, 5⟩]

private def plainDims (key : String) : Option Nat := if key = "a.w" then some 0 else none

/-- The hypotheses of `C117_model_partial` can be met: the second of two ranks loads a PyTorch file. -/
example : ∃ out, loadCheckpoint id (.torch (some (wholeFile plainParams))) ⟨1, 0, 2, 1⟩
      (shardDims tieDecl plainState tieTree) = .ok out ∧
    (setModelState matCopy (fun _ _ => false) tieTree out plainState).1 = .ok () ∧
    ∀ q ∈ plainParams, ∃ x y m, NamedAs plainState (fun _ _ => false) tieTree q.key x ∧ plainState.tensors[x]? = some y ∧
      PartOf (plainDims q.key) 2 1 q m ∧
      (setModelState matCopy (fun _ _ => false) tieTree out plainState).2.tensors[x]? =
        some { y with data := matCopy.copy y.data m } := by
  refine C117_model_partial id plainParams plainDims ⟨1, 0, 2, 1⟩ _ (.torch _ rfl) ⟨by simp [plainParams], ?_⟩ (by decide)
    (by decide) matCopy matCopy_good (fun _ _ => false) tieDecl tieTree plainState tie_consistent plain_names tie_good ?_ ?_ ?_
    plain_once ?_ ?_
  · intro q hq d hd
    simp only [plainParams, List.mem_cons, List.not_mem_nil, or_false] at hq
    rcases hq with rfl | rfl
    · cases hd
      exact ⟨by simp [Mat.Wf], 2, rfl, by decide, Nat.dvd_refl _⟩
    · simp [plainDims] at hd
  · intro key d
    simp only [plain_param, tie_declares]
    constructor
    · intro h
      by_cases hk : key = "a.w"
      · rw [plainDims, if_pos hk] at h
        cases h
        exact ⟨0, .inl ⟨hk, rfl⟩, rfl, rfl⟩
      · rw [plainDims, if_neg hk] at h; cases h
    · rintro ⟨x, ⟨rfl, -⟩ | ⟨-, rfl⟩, h, h'⟩
      · rw [h']; rfl
      · cases h
  · intro key
    simp only [plain_named, plainParams, List.map_cons, List.map_nil, List.mem_cons, List.not_mem_nil, or_false]
    constructor
    · rintro ⟨x, ⟨h, -⟩ | ⟨h, -⟩⟩
      · exact .inl h
      · exact .inr h
    · rintro (h | h)
      · exact ⟨0, .inl ⟨h, rfl⟩⟩
      · exact ⟨1, .inr ⟨h, rfl⟩⟩
  · intro q hq x m hx hp
    simp only [plainParams, List.mem_cons, List.not_mem_nil, or_false] at hq
    rcases hq with rfl | rfl
    · rcases (plain_named _ _ _).1 hx with ⟨-, rfl⟩ | ⟨h, -⟩
      · have hm : m = ⟨2, [[3, 4]]⟩ :=
          part_unique (q := ⟨"", ⟨2, [[1, 2], [3, 4]]⟩, 0⟩) hp
            (show IsShard ⟨2, [[1, 2], [3, 4]]⟩ 0 2 1 _ from ⟨2, rfl, by decide, rfl⟩) rfl
        subst hm
        exact ⟨_, rfl, rfl⟩
      · simp at h
    · rcases (plain_named _ _ _).1 hx with ⟨h, -⟩ | ⟨-, rfl⟩
      · simp at h
      · have hm : m = ⟨1, [[9]]⟩ := by simpa [plainDims, PartOf] using hp
        subst hm
        exact ⟨_, rfl, rfl⟩
  · intro q hq r hr ho x hx
    simp only [plainParams, List.mem_cons, List.not_mem_nil, or_false] at hq hr
    rcases hq with rfl | rfl <;> rcases hr with rfl | rfl <;> first | exact hx | (exact absurd ho (by decide))
  · intro q hq r hr x hx hx'
    simp only [plainParams, List.mem_cons, List.not_mem_nil, or_false] at hq hr
    rcases hq with rfl | rfl <;> rcases hr with rfl | rfl
    · exact ⟨rfl, Iff.rfl⟩
    · rcases (plain_named _ _ _).1 hx with ⟨-, rfl⟩ | ⟨h, -⟩
      · rcases (plain_named _ _ _).1 hx' with ⟨h, -⟩ | ⟨-, h⟩
        · simp at h
        · cases h
      · simp at h
    · rcases (plain_named _ _ _).1 hx' with ⟨-, rfl⟩ | ⟨h, -⟩
      · rcases (plain_named _ _ _).1 hx with ⟨h, -⟩ | ⟨-, h⟩
        · simp at h
        · cases h
      · simp at h
    · exact ⟨rfl, Iff.rfl⟩

end Fs2.Props
