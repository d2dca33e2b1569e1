import Verif.Gang.Laws

/-!
# Gangs: the grids that the two functions build
-/

namespace Fs2.Gang

theorem sorted_eq {l₁ l₂ : List Nat} (h₁ : l₁.Pairwise (· < ·)) (h₂ : l₂.Pairwise (· < ·))
    (h : ∀ a, a ∈ l₁ ↔ a ∈ l₂) : l₁ = l₂ := by
  refine List.Perm.eq_of_pairwise (le := (· < ·)) (fun a b _ _ h h' => absurd h (Nat.lt_asymm h')) h₁ h₂ ?_
  exact (List.perm_ext_iff_of_nodup (h₁.imp Nat.ne_of_lt) (h₂.imp Nat.ne_of_lt)).2 h

theorem pairwise_filter_range (n : Nat) (p : Nat → Bool) :
    ((List.range n).filter p).Pairwise (· < ·) :=
  List.Pairwise.filter _ List.pairwise_lt_range

theorem pairwise_map_range {n : Nat} {f : Nat → Nat} (h : ∀ i j, i < j → f i < f j) :
    ((List.range n).map f).Pairwise (· < ·) := by
  rw [List.pairwise_map]
  exact List.pairwise_lt_range.imp fun h' => h _ _ h'

theorem range_getD {n i : Nat} (h : i < n) : (List.range n).getD i 0 = i := by
  simp [List.getD_eq_getElem?_getD, h]

theorem rank_of_sorted {l : List Nat} (h : l.Pairwise (· < ·)) {x a : Nat} (hx : l[x]? = some a) :
    l.idxOf a = x :=
  idxOf_of (h.imp Nat.ne_of_lt) hx

/-- Columns of the grid over all ranks. -/
theorem cols_filter {rows cols k : Nat} (hk : k < cols) :
    ((List.range rows).map fun i => (List.range (rows * cols)).getD (i * cols + k) 0) =
    (List.range (rows * cols)).filter (fun q => q % cols = k) := by
  have : ((List.range rows).map fun i => (List.range (rows * cols)).getD (i * cols + k) 0) =
      (List.range rows).map fun i => i * cols + k := by
    refine List.map_congr_left fun i hi => ?_
    exact range_getD (pos_lt (List.mem_range.1 hi) hk)
  rw [this]
  refine sorted_eq (pairwise_map_range fun i j h => ?_) (pairwise_filter_range _ _) fun a => ?_
  · have : i * cols < j * cols := Nat.mul_lt_mul_of_pos_right h (by omega)
    omega
  · constructor
    · intro ha
      obtain ⟨i, hi, rfl⟩ := List.mem_map.1 ha
      have := pos_lt (List.mem_range.1 hi) hk
      simp [this, pos_col hk, List.mem_filter]
    · intro ha
      simp only [List.mem_filter, List.mem_range, decide_eq_true_eq] at ha
      exact (mem_col ha.1 hk).2 ha.2

theorem rows_filter {rows cols k : Nat} (hc : 0 < cols) (hk : k < rows) :
    ((List.range cols).map fun j => (List.range (rows * cols)).getD (k * cols + j) 0) =
    (List.range (rows * cols)).filter (fun q => q / cols = k) := by
  have : ((List.range cols).map fun j => (List.range (rows * cols)).getD (k * cols + j) 0) =
      (List.range cols).map fun j => k * cols + j := by
    refine List.map_congr_left fun j hj => ?_
    exact range_getD (pos_lt hk (List.mem_range.1 hj))
  rw [this]
  refine sorted_eq (pairwise_map_range fun i j h => by omega) (pairwise_filter_range _ _) fun a => ?_
  rw [mem_row hc]
  simp only [List.mem_filter, List.mem_range, decide_eq_true_eq]
  constructor
  · rintro rfl
    refine ⟨?_, rfl⟩
    have := pos_lt hk (Nat.mod_lt a hc)
    rwa [pos_eq] at this
  · exact fun h => h.2

/-- `create_parallel_gangs` on the gang of all processes. -/
theorem createParallel_ok {cuda : Bool} {n tp r : Nat} (hr : r < n) (htp : 0 < tp) (hd : tp ∣ n) :
    ∃ gs, createParallel cuda (world n) r tp = .ok gs ∧
      gs.root = world n ∧
      gs.dp.members = (List.range n).filter (fun q => q % tp = r % tp) ∧
      gs.tp.members = (List.range n).filter (fun q => q / tp = r / tp) ∧
      gs.dp.rank r = r / tp ∧ gs.tp.rank r = r % tp ∧
      gs.rdp = gs.dp ∧ gs.sdp.members = [r] ∧ gs.pp.members = [r] ∧
      (tp = 1 → n ≠ 1 → gs.dp = world n) := by
  obtain ⟨dp, rfl⟩ := hd
  rw [Nat.mul_comm tp dp] at hr ⊢
  have hsz : (world (dp * tp)).size = dp * tp := by simp [world, Gang.size]
  have hdiv : dp * tp / tp = dp := Nat.mul_div_cancel _ htp
  have hnd : (world (dp * tp)).members.Nodup := List.nodup_range
  have hx : (world (dp * tp)).members[r]? = some r := by simp [world, hr]
  have hrank : (world (dp * tp)).rank r = r := idxOf_of hnd hx
  obtain ⟨w1, e1⟩ := family_cols (cuda := cuda) hnd hx (.inr rfl) hsz
  obtain ⟨w2, e2⟩ := family_rows (cuda := cuda) hnd hx (.inr rfl) hsz
  have hcol := col_lt hr
  have hrow := row_lt hr
  have f1 : ((List.range dp).map fun i => (world (dp * tp)).members.getD (i * tp + r % tp) 0) = _ :=
    cols_filter (rows := dp) hcol
  have f2 : ((List.range tp).map fun j => (world (dp * tp)).members.getD (r / tp * tp + j) 0) = _ :=
    rows_filter (rows := dp) htp hrow
  have g1 : ((List.range dp).map fun i => (world (dp * tp)).members.getD (i * tp + r % tp) 0).idxOf r = r / tp := by
    refine rank_of_sorted (by rw [f1]; exact pairwise_filter_range _ _) ?_
    rw [List.getElem?_map, List.getElem?_range hrow, Option.map_some, pos_eq]
    simp only [world, range_getD hr]
  have g2 : ((List.range tp).map fun j => (world (dp * tp)).members.getD (r / tp * tp + j) 0).idxOf r = r % tp := by
    refine rank_of_sorted (by rw [f2]; exact pairwise_filter_range _ _) ?_
    rw [List.getElem?_map, List.getElem?_range hcol, Option.map_some, pos_eq]
    simp only [world, range_getD hr]
  have hmod : ((dp * tp : Nat) : Int) % (tp : Int) = 0 := by
    rw [← Int.natCast_emod, Nat.mul_mod_left]; rfl
  simp only [createParallel, hsz, hrank, Int.toNat_natCast, hdiv, e1, e2, hmod]
  rw [if_neg (by omega), if_neg (by simp)]
  simp only [bind, Except.bind, pure, Except.pure, Gangs.postInit, Gang.rank]
  have hpost : ¬ (r = 0 ∧ (r / tp ≠ 0 ∨ r % tp ≠ 0 ∧ List.idxOf r [r] ≠ 0)) := by
    rintro ⟨rfl, h | ⟨h, -⟩⟩
    · exact h (Nat.zero_div _)
    · exact h (Nat.zero_mod _)
  have hrank' : (world (dp * tp)).members.idxOf r = r := hrank
  simp only [g1, g2, hrank']
  refine ⟨⟨world (dp * tp), ⟨_, w1⟩, ⟨_, w1⟩, ⟨[r], false⟩, ⟨_, w2⟩, ⟨[r], false⟩⟩, ?_, rfl, f1, f2, g1, g2, rfl, rfl, rfl, ?_⟩
  · by_cases h0 : r = 0
    · have h1 := fun h => hpost ⟨h0, h⟩
      rw [if_pos h0, if_neg h1]
    · rw [if_neg h0]
  · rintro rfl h1
    simp only [Nat.mul_one] at h1 e1 ⊢
    have hs' : dp = (world dp).size := by simp [world, Gang.size]
    have : family cuda (world dp) r dp (meshT dp 1) (r % 1) = .ok (world dp) := by
      simp only [family]
      rw [if_neg h1, if_pos hs']
      rfl
    rw [this] at e1
    exact (Except.ok.inj e1).symm

theorem createParallel_error {cuda : Bool} {n r : Nat} {tp : Int} :
    (tp < 1 ∨ (n : Int) % tp ≠ 0) → createParallel cuda (world n) r tp = .error .value := by
  intro h
  have hsz : (world n).size = n := by simp [world, Gang.size]
  simp only [createParallel, hsz]
  by_cases h1 : tp < 1
  · rw [if_pos h1]; rfl
  · rw [if_neg h1, if_pos (h.resolve_left h1)]; rfl

/-- `create_fsdp_gangs` with an intra node size, on any gangs with a data parallel gang. -/
theorem createFsdp_ok {cuda : Bool} {gs : Gangs} {r x m inter : Nat} (hx : gs.dp.members[x]? = some r)
    (hdp : gs.dp.members.Pairwise (· < ·)) (hok : cuda = true ∨ gs.dp.world = true) (hm : 1 < m)
    (hsz : gs.dp.size = inter * m) (hpost : gs.postInit r = .ok ()) :
    ∃ gs', createFsdp cuda gs r (some m) = .ok gs' ∧
      gs'.rdp.members = ((List.range inter).map fun i => gs.dp.members.getD (i * m + x % m) 0) ∧
      gs'.sdp.members = ((List.range m).map fun j => gs.dp.members.getD (x / m * m + j) 0) ∧
      gs'.rdp.rank r = x / m ∧ gs'.sdp.rank r = x % m ∧
      gs'.root = gs.root ∧ gs'.dp = gs.dp ∧ gs'.tp = gs.tp ∧ gs'.pp = gs.pp := by
  have hnd := hdp.imp Nat.ne_of_lt
  have hrank : gs.dp.rank r = x := idxOf_of hnd hx
  obtain ⟨w1, e1⟩ := family_cols (cuda := cuda) hnd hx hok hsz
  obtain ⟨w2, e2⟩ := family_rows (cuda := cuda) hnd hx hok hsz
  have hxl : x < inter * m := by rw [← hsz]; exact (List.getElem?_eq_some_iff.1 hx).1
  have hcol := col_lt hxl
  have hrow := row_lt hxl
  have hget : ∀ {a b : Nat}, a < b → b < inter * m → gs.dp.members.getD a 0 < gs.dp.members.getD b 0 := by
    intro a b hab hb
    have hb' : b < gs.dp.members.length := by rw [← hsz] at hb; exact hb
    rw [List.getD_eq_getElem?_getD, List.getD_eq_getElem?_getD, List.getElem?_eq_getElem hb',
      List.getElem?_eq_getElem (show a < gs.dp.members.length by omega)]
    exact List.pairwise_iff_getElem.1 hdp a b _ _ hab
  have hr : gs.dp.members.getD x 0 = r := by simp [List.getD_eq_getElem?_getD, hx]
  have p1 : ((List.range inter).map fun i => gs.dp.members.getD (i * m + x % m) 0).Pairwise (· < ·) := by
    rw [List.pairwise_map]
    refine List.Pairwise.imp_of_mem ?_ List.pairwise_lt_range
    intro a b ha hb hab
    have : a * m < b * m := Nat.mul_lt_mul_of_pos_right hab (by omega)
    exact hget (by omega) (pos_lt (List.mem_range.1 hb) hcol)
  have p2 : ((List.range m).map fun j => gs.dp.members.getD (x / m * m + j) 0).Pairwise (· < ·) := by
    rw [List.pairwise_map]
    refine List.Pairwise.imp_of_mem ?_ List.pairwise_lt_range
    intro a b ha hb hab
    exact hget (by omega) (pos_lt hrow (List.mem_range.1 hb))
  have g1 := rank_of_sorted (x := x / m) (a := r) p1 (by
    rw [List.getElem?_map, List.getElem?_range hrow, Option.map_some, pos_eq, hr])
  have g2 := rank_of_sorted (x := x % m) (a := r) p2 (by
    rw [List.getElem?_map, List.getElem?_range hcol, Option.map_some, pos_eq, hr])
  have hmod : ((gs.dp.size : Nat) : Int) % (m : Int) = 0 := by
    rw [hsz, ← Int.natCast_emod, Nat.mul_mod_left]; rfl
  have hdiv : gs.dp.size / m = inter := by rw [hsz]; exact Nat.mul_div_cancel _ (by omega)
  refine ⟨{ gs with rdp := ⟨_, w1⟩, sdp := ⟨_, w2⟩ }, ?_, rfl, rfl, g1, g2, rfl, rfl, rfl, rfl⟩
  simp only [createFsdp, hmod, hrank, Int.toNat_natCast, hdiv, e1, e2]
  rw [if_neg (by omega), if_neg (by simp)]
  simp only [bind, Except.bind, pure, Except.pure]
  have : ∀ a b, Gangs.postInit { gs with rdp := a, sdp := b } r = gs.postInit r := fun _ _ => rfl
  rw [this, hpost]

theorem createFsdp_none {cuda : Bool} {gs : Gangs} {r : Nat} (hpost : gs.postInit r = .ok ()) :
    createFsdp cuda gs r none = .ok { gs with rdp := ⟨[r], false⟩, sdp := gs.dp } := by
  simp only [createFsdp]
  have : ∀ a b, Gangs.postInit { gs with rdp := a, sdp := b } r = gs.postInit r := fun _ _ => rfl
  simp only [this, hpost]
  rfl

theorem postInit_of_ok {cuda : Bool} {n r : Nat} {tp : Int} {gs : Gangs}
    (h : createParallel cuda (world n) r tp = .ok gs) : gs.postInit r = .ok () := by
  simp only [createParallel, bind, Except.bind] at h
  split at h
  · cases h
  · split at h
    · cases h
    · split at h
      · cases h
      · split at h
        · cases h
        · split at h
          · cases h
          · next hp =>
            cases h
            exact hp

end Fs2.Gang
