import Verif.Gang.Model

/-!
# Gangs: lemmas
-/

namespace Fs2.Gang

/-- Position `i * cols + j` of a grid: row `i`, column `j`. -/
theorem pos_row {cols i j : Nat} (h : j < cols) : (i * cols + j) / cols = i := by
  rw [Nat.mul_comm, Nat.mul_add_div (by omega), Nat.div_eq_of_lt h, Nat.add_zero]

theorem pos_col {cols i j : Nat} (h : j < cols) : (i * cols + j) % cols = j := by
  rw [Nat.mul_comm, Nat.mul_add_mod, Nat.mod_eq_of_lt h]

theorem pos_lt {rows cols i j : Nat} (hi : i < rows) (hj : j < cols) : i * cols + j < rows * cols := by
  have : (i + 1) * cols ≤ rows * cols := Nat.mul_le_mul_right _ hi
  rw [Nat.add_mul, Nat.one_mul] at this
  omega

theorem row_lt {rows cols x : Nat} (h : x < rows * cols) : x / cols < rows :=
  Nat.div_lt_of_lt_mul (by rwa [Nat.mul_comm])

theorem col_lt {rows cols x : Nat} (h : x < rows * cols) : x % cols < cols :=
  Nat.mod_lt _ (Nat.pos_of_ne_zero fun h' => by simp [h'] at h)

theorem pos_eq (x cols : Nat) : x / cols * cols + x % cols = x := by
  rw [Nat.mul_comm]; exact Nat.div_add_mod x cols

theorem mem_row {cols i x : Nat} (hc : 0 < cols) :
    x ∈ (List.range cols).map (fun j => i * cols + j) ↔ x / cols = i := by
  simp only [List.mem_map, List.mem_range]
  constructor
  · rintro ⟨j, hj, rfl⟩; exact pos_row hj
  · rintro rfl; exact ⟨x % cols, Nat.mod_lt _ hc, pos_eq x cols⟩

theorem mem_col {rows cols j x : Nat} (hx : x < rows * cols) (hj : j < cols) :
    x ∈ (List.range rows).map (fun i => i * cols + j) ↔ x % cols = j := by
  simp only [List.mem_map, List.mem_range]
  constructor
  · rintro ⟨i, _, rfl⟩; exact pos_col hj
  · rintro rfl; exact ⟨x / cols, row_lt hx, pos_eq x cols⟩

theorem find_range {n k : Nat} {f : Nat → List Nat} {p : List Nat → Bool} (hk : k < n)
    (h : ∀ i < n, p (f i) = true ↔ i = k) : ((List.range n).map f).find? p = some (f k) := by
  rw [List.find?_eq_some_iff_append]
  refine ⟨(h k hk).2 rfl, (List.range k).map f, ((List.range n).drop (k + 1)).map f, ?_, ?_⟩
  · have h1 : List.range n = List.range k ++ k :: (List.range n).drop (k + 1) := by
      have := (List.take_append_drop k (List.range n)).symm
      rw [List.drop_eq_getElem_cons (by simpa using hk)] at this
      simpa [List.take_range, Nat.min_eq_left (Nat.le_of_lt hk)] using this
    conv => lhs; rw [h1]
    simp
  · intro a ha
    simp only [List.mem_map, List.mem_range] at ha
    obtain ⟨i, hi, rfl⟩ := ha
    have := h i (by omega)
    cases hp : p (f i)
    · rfl
    · have := this.1 hp; omega

theorem nodup_map_range {f : Nat → Nat} {n : Nat} (h : ∀ i < n, ∀ j < n, f i = f j → i = j) :
    ((List.range n).map f).Nodup := by
  rw [List.Nodup, List.pairwise_map]
  refine List.Pairwise.imp_of_mem ?_ (List.nodup_range (n := n))
  intro a b ha hb hne he
  exact hne (h a (List.mem_range.1 ha) b (List.mem_range.1 hb) he)

theorem idxOf_of {L : List Nat} (hL : L.Nodup) {x a : Nat} (h : L[x]? = some a) : L.idxOf a = x := by
  obtain ⟨hx, rfl⟩ := List.getElem?_eq_some_iff.1 h
  exact List.Nodup.idxOf_getElem hL x hx

theorem idxOf_map_range {f : Nat → Nat} {n k : Nat} (h : ∀ i < n, ∀ j < n, f i = f j → i = j)
    (hk : k < n) : ((List.range n).map f).idxOf (f k) = k :=
  idxOf_of (nodup_map_range h) (by simp [hk])

theorem eraseDups_nodup {l : List Int} : (h : l.Nodup) → l.eraseDups = l := by
  induction l with
  | nil => intro _; simp
  | cons a l ih =>
    intro h
    rw [List.nodup_cons] at h
    rw [List.eraseDups_cons]
    have : l.filter (fun b => !b == a) = l := by
      rw [List.filter_eq_self]
      intro b hb
      have : b ≠ a := fun h' => h.1 (h' ▸ hb)
      simpa using this
    rw [this, ih h.2]

theorem eraseDups_length_le (l : List Int) : l.eraseDups.length ≤ l.length := by
  generalize hn : l.length = n
  induction n using Nat.strongRecOn generalizing l with
  | _ n ih =>
    cases l with
    | nil => simp
    | cons a l =>
      rw [List.eraseDups_cons]
      have h1 : (l.filter fun b => !b == a).length ≤ l.length := List.length_filter_le _ _
      simp only [List.length_cons] at hn ⊢
      have := ih (l.filter fun b => !b == a).length (by omega) _ rfl
      omega

theorem eraseDups_length {l : List Int} : l.eraseDups.length = l.length ↔ l.Nodup := by
  constructor
  · intro h
    induction l with
    | nil => simp
    | cons a l ih =>
      rw [List.eraseDups_cons] at h
      simp only [List.length_cons, Nat.add_right_cancel_iff] at h
      have h1 : (l.filter fun b => !b == a).length ≤ l.length := List.length_filter_le _ _
      have h2 := eraseDups_length_le (l.filter fun b => !b == a)
      have h3 : (l.filter fun b => !b == a).length = l.length := by omega
      have h4 : l.filter (fun b => !b == a) = l := by
        rw [List.filter_eq_self, ← List.length_filter_eq_length_iff]
        exact h3
      rw [h4] at h
      rw [List.nodup_cons]
      refine ⟨fun ha => ?_, ih h⟩
      rw [List.filter_eq_self] at h4
      simpa using h4 a ha
  · intro h; rw [eraseDups_nodup h]

theorem checkRanks_ok {ranks : List Int} {n : Int} :
    checkRanks ranks n = .ok () ↔ ranks.Nodup ∧ ∀ a ∈ ranks, 0 ≤ a ∧ a ≤ n := by
  simp only [checkRanks]
  by_cases h : ranks.eraseDups.length = ranks.length
  · have hn := eraseDups_length.1 h
    by_cases h2 : ranks.any (fun rank => rank < 0 ∨ rank > n) = true
    · simp only [h, ne_eq, not_true_eq_false, if_false, h2, if_true]
      constructor
      · intro h; cases h
      · rintro ⟨_, h3⟩
        rw [List.any_eq_true] at h2
        obtain ⟨a, ha, h4⟩ := h2
        have := h3 a ha
        simp only [decide_eq_true_eq] at h4
        omega
    · simp only [h, ne_eq, not_true_eq_false, if_false, h2]
      refine ⟨fun _ => ⟨hn, fun a ha => ?_⟩, fun _ => rfl⟩
      rw [Bool.not_eq_true, List.any_eq_false] at h2
      have := h2 a ha
      simp only [decide_eq_true_eq] at this
      omega
  · have hn : ¬ ranks.Nodup := fun h' => h (eraseDups_length.2 h')
    simp only [ne_eq, h, not_false_eq_true, if_true]
    constructor
    · intro h; cases h
    · intro h; exact absurd h.1 hn

theorem createGang_world {g : Gang} {r : Nat} {ranks : List Nat} (hw : g.world = true)
    (hn : ranks.Nodup) (hl : ∀ a ∈ ranks, a < g.size) :
    createGang g r ranks = .ok (if g.rank r ∈ ranks then some ⟨ranks.filterMap (g.members[·]?), false⟩ else none) := by
  have : checkRanks (ranks.map Int.ofNat) g.size = .ok () := by
    rw [checkRanks_ok]
    refine ⟨?_, fun a ha => ?_⟩
    · rw [List.Nodup, List.pairwise_map]
      exact hn.imp fun h h' => h (Int.ofNat.inj h')
    · obtain ⟨b, hb, rfl⟩ := List.mem_map.1 ha
      have := hl b hb
      exact ⟨Int.natCast_nonneg b, Int.ofNat_le.2 (Nat.le_of_lt this)⟩
  simp only [createGang, this, hw, if_true]
  simp only [bind, Except.bind]
  split <;> rfl

theorem createAll_world {g : Gang} {r k : Nat} (hw : g.world = true) (groups : List (List Nat)) :
    ∀ (i : Nat) (keep : Option Gang), (∀ ranks ∈ groups, ranks.Nodup ∧ ∀ a ∈ ranks, a < g.size) →
    createAll g r k groups i keep = .ok (if i ≤ k then
      match groups[k - i]? with
      | some ranks => if g.rank r ∈ ranks then some ⟨ranks.filterMap (g.members[·]?), false⟩ else none
      | none => keep else keep) := by
  induction groups with
  | nil => intro i keep _; simp [createAll, pure, Except.pure]
  | cons ranks rest ih =>
    intro i keep h
    have h0 := h ranks List.mem_cons_self
    rw [createAll, createGang_world hw h0.1 h0.2]
    simp only [bind, Except.bind]
    rw [ih (i + 1) _ fun x hx => h x (List.mem_cons_of_mem _ hx)]
    by_cases hik : i = k
    · subst hik
      rw [if_neg (show ¬ i + 1 ≤ i by omega), if_pos (Nat.le_refl _), if_pos rfl]
      simp
    · rw [if_neg hik]
      by_cases hlt : i < k
      · rw [if_pos (show i + 1 ≤ k by omega), if_pos (show i ≤ k by omega)]
        have : k - i = (k - (i + 1)) + 1 := by omega
        rw [this, List.getElem?_cons_succ]
      · rw [if_neg (show ¬ i + 1 ≤ k by omega), if_neg (show ¬ i ≤ k by omega)]

/-- `family` for the columns and the rows of a grid laid over the gang `g`. -/
theorem family_grid {cuda : Bool} {g : Gang} {r x size k n : Nat} {f : Nat → Nat → Nat}
    (hg : g.members.Nodup) (hx : g.members[x]? = some r) (hok : cuda = true ∨ g.world = true)
    (hk : k < n) (hmem : ∀ i < n, x ∈ (List.range size).map (f i) ↔ i = k)
    (hlt : ∀ i < n, ∀ j < size, f i j < g.size) (hinj : ∀ i < n, ∀ a < size, ∀ b < size, f i a = f i b → a = b)
    (h1 : size = 1 → f k 0 = x) (hall : size = g.size → ∀ j < size, f k j = j) :
    ∃ w, family cuda g r size ((List.range n).map fun i => (List.range size).map (f i)) k =
      .ok ⟨(List.range size).map fun j => g.members.getD (f k j) 0, w⟩ := by
  have hrank : g.rank r = x := idxOf_of hg hx
  have hsub : ∀ i < n, ((List.range size).map (f i)).filterMap (g.members[·]?) =
      (List.range size).map fun j => g.members.getD (f i j) 0 := by
    intro i hi
    rw [List.filterMap_map]
    have : ∀ l : List Nat, (∀ j ∈ l, j < size) → l.filterMap ((g.members[·]?) ∘ f i) =
        l.map fun j => g.members.getD (f i j) 0 := by
      intro l hl
      induction l with
      | nil => rfl
      | cons j l ih =>
        have hj := hlt i hi j (hl j List.mem_cons_self)
        rw [List.map_cons, ← ih fun a ha => hl a (List.mem_cons_of_mem _ ha)]
        have : g.members[f i j]? = some (g.members.getD (f i j) 0) := by
          rw [List.getD_eq_getElem?_getD, List.getElem?_eq_getElem hj]
          rfl
        rw [List.filterMap_cons_some (b := g.members.getD (f i j) 0) (by simpa using this)]
    exact this _ fun j hj => List.mem_range.1 hj
  simp only [family]
  by_cases hs1 : size = 1
  · subst hs1
    refine ⟨false, ?_⟩
    rw [if_pos rfl]
    simp [h1 rfl, hx, bind, Except.bind, pure, Except.pure]
  · rw [if_neg hs1]
    by_cases hsz : size = g.size
    · refine ⟨g.world, ?_⟩
      rw [if_pos hsz]
      have : ((List.range size).map fun j => g.members.getD (f k j) 0) = g.members := by
        apply List.ext_getElem?
        intro j
        by_cases hj : j < size
        · rw [List.getElem?_map, List.getElem?_range hj, Option.map_some, hall hsz j hj,
            List.getD_eq_getElem?_getD, List.getElem?_eq_getElem (by rw [hsz] at hj; exact hj)]
          rfl
        · rw [List.getElem?_eq_none (by simpa using hj), List.getElem?_eq_none (by
            have : g.members.length ≤ j := by rw [hsz] at hj; exact Nat.le_of_not_lt hj
            exact this)]
      rw [this]
      rfl
    · rw [if_neg hsz]
      refine ⟨false, ?_⟩
      have hfin : (((List.range n).map fun i => (List.range size).map (f i))[k]?) =
          some ((List.range size).map (f k)) := by
        rw [List.getElem?_map, List.getElem?_range hk]
        rfl
      cases cuda with
      | true =>
        simp only [if_true, splitGroup, hrank]
        rw [find_range (f := fun i => (List.range size).map (f i)) hk (by
          intro i hi
          simpa using hmem i hi)]
        simp only [Option.map_some, hsub k hk]
        rfl
      | false =>
        have hw : g.world = true := by simpa using hok
        rw [if_neg (by simp), createAll_world hw]
        · rw [if_pos (Nat.zero_le _), Nat.sub_zero, hfin]
          simp only [hrank, (hmem k hk).2 rfl, if_true, hsub k hk]
          rfl
        · intro ranks hr
          obtain ⟨i, hi, rfl⟩ := List.mem_map.1 hr
          rw [List.mem_range] at hi
          refine ⟨nodup_map_range (hinj i hi), fun a ha => ?_⟩
          obtain ⟨j, hj, rfl⟩ := List.mem_map.1 ha
          exact hlt i hi j (List.mem_range.1 hj)

theorem family_cols {cuda : Bool} {g : Gang} {r x rows cols : Nat}
    (hg : g.members.Nodup) (hx : g.members[x]? = some r) (hok : cuda = true ∨ g.world = true)
    (hsz : g.size = rows * cols) :
    ∃ w, family cuda g r rows (meshT rows cols) (x % cols) =
      .ok ⟨(List.range rows).map fun i => g.members.getD (i * cols + x % cols) 0, w⟩ := by
  have hxl : x < rows * cols := by
    rw [← hsz]; exact (List.getElem?_eq_some_iff.1 hx).1
  have hc := col_lt hxl
  refine family_grid (f := fun j i => i * cols + j) hg hx hok hc (fun j hj => ?_) (fun j hj i hi => ?_)
    (fun j hj a _ b _ h => ?_) (fun h1 => ?_) (fun hall j hj => ?_)
  · rw [mem_col hxl hj, eq_comm]
  · rw [hsz]; exact pos_lt hi hj
  · have : a * cols = b * cols := by simpa using h
    exact Nat.eq_of_mul_eq_mul_right (by omega) this
  · subst h1
    simp only [Nat.zero_mul, Nat.zero_add]
    exact Nat.mod_eq_of_lt (by omega)
  · have : cols = 1 := by
      have : rows * cols = rows * 1 := by omega
      exact Nat.eq_of_mul_eq_mul_left (by omega) this
    subst this
    simp [Nat.mod_one]

theorem family_rows {cuda : Bool} {g : Gang} {r x rows cols : Nat}
    (hg : g.members.Nodup) (hx : g.members[x]? = some r) (hok : cuda = true ∨ g.world = true)
    (hsz : g.size = rows * cols) :
    ∃ w, family cuda g r cols (mesh rows cols) (x / cols) =
      .ok ⟨(List.range cols).map fun j => g.members.getD (x / cols * cols + j) 0, w⟩ := by
  have hxl : x < rows * cols := by
    rw [← hsz]; exact (List.getElem?_eq_some_iff.1 hx).1
  have hc := col_lt hxl
  refine family_grid (f := fun i j => i * cols + j) hg hx hok (row_lt hxl) (fun j hj => ?_) (fun i hi j hj => ?_)
    (fun i hi a _ b _ h => ?_) (fun h1 => ?_) (fun hall j hj => ?_)
  · rw [mem_row (by omega), eq_comm]
  · rw [hsz]; exact pos_lt hi hj
  · simpa using h
  · subst h1
    simp
  · have : rows = 1 := by
      have : rows * cols = 1 * cols := by omega
      exact Nat.eq_of_mul_eq_mul_right (by omega) this
    subst this
    have : x / cols = 0 := Nat.div_eq_of_lt (by omega)
    simp [this]

end Fs2.Gang
