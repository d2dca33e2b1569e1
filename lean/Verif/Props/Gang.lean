import Verif.Gang.Grid

/-!
# Properties of gangs (C44–C46)
-/

namespace Fs2.Props

open Fs2.Gang

/-! ## C44: parallel gangs form a grid -/

/-- For every number of ranks and every tensor parallel size that divides it, on every rank: the
call succeeds (so the result passes `Gangs.__post_init__`), the data parallel gang is the
list of ranks that agree with this one modulo the tensor parallel size, the tensor parallel
gang is the block of consecutive ranks around this one, and (dp rank, tp rank) are the
quotient and the remainder. -/
theorem C44_grid (cuda : Bool) {n tp r : Nat} (hr : r < n) (htp : 0 < tp) (hd : tp ∣ n) :
    ∃ gs, createParallel cuda (world n) r tp = .ok gs ∧
      gs.dp.members = (List.range n).filter (fun q => q % tp = r % tp) ∧
      gs.tp.members = (List.range n).filter (fun q => q / tp = r / tp) ∧
      gs.dp.rank r = r / tp ∧ gs.tp.rank r = r % tp := by
  obtain ⟨gs, h1, -, h2, h3, h4, h5, -⟩ := createParallel_ok (cuda := cuda) hr htp hd
  exact ⟨gs, h1, h2, h3, h4, h5⟩

example : (3 : Nat) < 8 ∧ 0 < 2 ∧ 2 ∣ 8 := by decide

/-- Two ranks agree on the gangs they share, each rank is in its own gangs, a rank that is in
both gangs of another is that rank, and (dp rank, tp rank) identifies a rank. -/
theorem C44_consistent (cuda : Bool) {n r q : Nat} {tp : Int} {gs gs' : Gangs} (hr : r < n) (hq : q < n)
    (h : createParallel cuda (world n) r tp = .ok gs)
    (h' : createParallel cuda (world n) q tp = .ok gs') :
    (r ∈ gs.dp.members ∧ r ∈ gs.tp.members) ∧
    (q ∈ gs.dp.members → gs'.dp.members = gs.dp.members) ∧
    (q ∈ gs.tp.members → gs'.tp.members = gs.tp.members) ∧
    (q ∈ gs.dp.members → q ∈ gs.tp.members → q = r) ∧
    (gs'.dp.rank q = gs.dp.rank r → gs'.tp.rank q = gs.tp.rank r → q = r) := by
  have hcond : ¬ (tp < 1 ∨ (n : Int) % tp ≠ 0) := by
    intro hc
    rw [createParallel_error hc] at h
    cases h
  simp only [not_or, Int.not_lt, ne_eq, Decidable.not_not] at hcond
  obtain ⟨k, rfl⟩ : ∃ k : Nat, tp = k := ⟨tp.toNat, by omega⟩
  have hk : 0 < k := by omega
  have hd : k ∣ n := by
    have := hcond.2
    rw [← Int.natCast_emod] at this
    exact Nat.dvd_of_mod_eq_zero (by omega)
  obtain ⟨g, e, -, a1, a2, a3, a4, -⟩ := createParallel_ok (cuda := cuda) hr hk hd
  obtain ⟨g', e', -, b1, b2, b3, b4, -⟩ := createParallel_ok (cuda := cuda) hq hk hd
  rw [h] at e
  rw [h'] at e'
  cases e
  cases e'
  have huniq : q % k = r % k → q / k = r / k → q = r := by
    intro h1 h2
    rw [← pos_eq q k, ← pos_eq r k, h1, h2]
  refine ⟨⟨by simp [a1, hr, List.mem_filter], by simp [a2, hr, List.mem_filter]⟩, ?_, ?_, ?_, ?_⟩
  · intro hm
    simp only [a1, List.mem_filter, decide_eq_true_eq] at hm
    rw [a1, b1, hm.2]
  · intro hm
    simp only [a2, List.mem_filter, decide_eq_true_eq] at hm
    rw [a2, b2, hm.2]
  · intro hm hm'
    simp only [a1, a2, List.mem_filter, decide_eq_true_eq] at hm hm'
    exact huniq hm.2 hm'.2
  · rw [a3, a4, b3, b4]
    exact fun h1 h2 => huniq h2 h1

example : ∃ gs gs', createParallel false (world 8) 3 (2 : Int) = .ok gs ∧
    createParallel false (world 8) 5 (2 : Int) = .ok gs' ∧ 5 ∈ gs.dp.members := by
  exact ⟨_, _, rfl, rfl, by decide⟩

/-- The sizes that are refused. -/
theorem C44_rejects (cuda : Bool) {n r : Nat} (hr : r < n) (tp : Int) :
    createParallel cuda (world n) r tp = .error .value ↔ tp < 1 ∨ ¬ tp ∣ n := by
  constructor
  · intro h
    apply Decidable.byContradiction
    intro hc
    simp only [not_or, Int.not_lt, Decidable.not_not] at hc
    obtain ⟨k, rfl⟩ : ∃ k : Nat, tp = k := ⟨tp.toNat, by omega⟩
    obtain ⟨g, e, -⟩ := createParallel_ok (cuda := cuda) hr (show 0 < k by omega) (Int.natCast_dvd_natCast.1 hc.2)
    rw [h] at e
    cases e
  · intro h
    refine createParallel_error (h.imp id fun h h' => h (Int.dvd_of_emod_eq_zero h'))

/-! ## C45: FSDP gangs form a grid inside the data parallel gang -/

/-- With an intra node size that divides the data parallel size: the replica gang holds the ranks
of the data parallel gang at the same place in their node, the shard gang those of the
same node.  For cuda devices and any tensor parallel size, or without tensor parallelism. -/
theorem C45_hybrid_partial (cuda : Bool) {n tp m r : Nat} (hr : r < n) (htp : 0 < tp) (hd : tp ∣ n)
    (hm : 1 < m) (hdm : m ∣ n / tp) (hdev : cuda = true ∨ tp = 1) :
    ∃ gs gs', createParallel cuda (world n) r tp = .ok gs ∧
      createFsdp cuda gs r (some m) = .ok gs' ∧
      gs'.rdp.members = (List.range n).filter
        (fun q => q % tp = r % tp ∧ q / tp % m = r / tp % m) ∧
      gs'.sdp.members = (List.range n).filter
        (fun q => q % tp = r % tp ∧ q / tp / m = r / tp / m) ∧
      gs'.rdp.rank r = r / tp / m ∧ gs'.sdp.rank r = r / tp % m ∧
      gs'.dp = gs.dp ∧ gs'.tp = gs.tp ∧ gs'.pp = gs.pp := by
  obtain ⟨gs, h1, -, h2, h3, h4, h5, -, -, -, h6⟩ := createParallel_ok (cuda := cuda) hr htp hd
  obtain ⟨dp, rfl⟩ := hd
  rw [Nat.mul_comm tp dp] at *
  rw [Nat.mul_div_cancel _ htp] at hdm
  obtain ⟨inter, rfl⟩ := hdm
  have hcol := col_lt hr
  have hrow := row_lt hr
  have hdpm : gs.dp.members = (List.range (m * inter)).map fun i => i * tp + r % tp := by
    rw [h2, ← cols_filter hcol]
    exact List.map_congr_left fun i hi => range_getD (pos_lt (List.mem_range.1 hi) hcol)
  have hget : ∀ i, i < m * inter → gs.dp.members.getD i 0 = i * tp + r % tp := by
    intro i hi
    simp [List.getD_eq_getElem?_getD, hdpm, hi]
  have hx : gs.dp.members[r / tp]? = some r := by
    rw [hdpm, List.getElem?_map, List.getElem?_range hrow, Option.map_some, pos_eq]
  have hw : cuda = true ∨ gs.dp.world = true := by
    rcases hdev with h | rfl
    · exact .inl h
    · refine .inr ?_
      rw [h6 rfl]
      · rfl
      · intro h
        have h7 : m * inter = 1 := by simpa using h
        have := Nat.eq_one_of_mul_eq_one_right h7
        omega
  have hp : gs.dp.members.Pairwise (· < ·) := by rw [h2]; exact pairwise_filter_range _ _
  have hsz : gs.dp.size = inter * m := by simp [Gang.size, hdpm, Nat.mul_comm]
  obtain ⟨gs', f1, f2, f3, f4, f5, -, f6, f7, f8⟩ := createFsdp_ok hx hp hw hm hsz (postInit_of_ok h1)
  have hrow' : r / tp < inter * m := by rw [Nat.mul_comm]; exact hrow
  have hc2 := col_lt hrow'
  have hr2 := row_lt hrow'
  refine ⟨gs, gs', h1, f1, ?_, ?_, f4, f5, f6, f7, f8⟩
  · rw [f2]
    have : ((List.range inter).map fun i => gs.dp.members.getD (i * m + r / tp % m) 0) =
        (List.range inter).map fun i => (i * m + r / tp % m) * tp + r % tp := by
      refine List.map_congr_left fun i hi => hget _ ?_
      rw [Nat.mul_comm m inter]; exact pos_lt (List.mem_range.1 hi) hc2
    rw [this]
    refine sorted_eq (pairwise_map_range fun i j h => ?_) (pairwise_filter_range _ _) fun a => ?_
    · have h8 : i * m < j * m := Nat.mul_lt_mul_of_pos_right h (by omega)
      have : (i * m + r / tp % m) * tp < (j * m + r / tp % m) * tp :=
        Nat.mul_lt_mul_of_pos_right (by omega) htp
      omega
    · simp only [List.mem_map, List.mem_range, List.mem_filter, decide_eq_true_eq]
      constructor
      · rintro ⟨i, hi, rfl⟩
        refine ⟨pos_lt ?_ hcol, pos_col hcol, ?_⟩
        · rw [Nat.mul_comm m inter]; exact pos_lt hi hc2
        · rw [pos_row hcol, pos_col hc2]
      · rintro ⟨ha, hb, hc⟩
        have ha' : a / tp < inter * m := by rw [Nat.mul_comm]; exact row_lt ha
        refine ⟨a / tp / m, row_lt ha', ?_⟩
        rw [← hb, ← hc, pos_eq, pos_eq]
  · rw [f3]
    have : ((List.range m).map fun j => gs.dp.members.getD (r / tp / m * m + j) 0) =
        (List.range m).map fun j => (r / tp / m * m + j) * tp + r % tp := by
      refine List.map_congr_left fun i hi => hget _ ?_
      rw [Nat.mul_comm m inter]; exact pos_lt hr2 (List.mem_range.1 hi)
    rw [this]
    refine sorted_eq (pairwise_map_range fun i j h => ?_) (pairwise_filter_range _ _) fun a => ?_
    · have : (r / tp / m * m + i) * tp < (r / tp / m * m + j) * tp :=
        Nat.mul_lt_mul_of_pos_right (by omega) htp
      omega
    · simp only [List.mem_map, List.mem_range, List.mem_filter, decide_eq_true_eq]
      constructor
      · rintro ⟨i, hi, rfl⟩
        refine ⟨pos_lt ?_ hcol, pos_col hcol, ?_⟩
        · rw [Nat.mul_comm m inter]; exact pos_lt hr2 hi
        · rw [pos_row hcol, pos_row hi]
      · rintro ⟨ha, hb, hc⟩
        refine ⟨a / tp % m, Nat.mod_lt _ (by omega), ?_⟩
        rw [← hb, ← hc, pos_eq, pos_eq]

example : (5 : Nat) < 16 ∧ 0 < 2 ∧ 2 ∣ 16 ∧ 1 < 4 ∧ 4 ∣ 16 / 2 := by decide

/-- The grid: a replica gang and a shard gang of one rank meet only in that rank. -/
theorem C45_grid (cuda : Bool) {n tp m r q : Nat} {gs gs' : Gangs} (hr : r < n)
    (htp : 0 < tp) (hd : tp ∣ n) (hm : 1 < m) (hdm : m ∣ n / tp) (hdev : cuda = true ∨ tp = 1)
    (h : createParallel cuda (world n) r tp = .ok gs) (h' : createFsdp cuda gs r (some m) = .ok gs')
    (hq : q ∈ gs'.rdp.members) (hq' : q ∈ gs'.sdp.members) : q = r := by
  obtain ⟨g, g', e1, e2, e3, e4, -⟩ := C45_hybrid_partial cuda hr htp hd hm hdm hdev
  rw [h] at e1; cases e1
  rw [h'] at e2; cases e2
  simp only [e3, e4, List.mem_filter, decide_eq_true_eq] at hq hq'
  rw [← pos_eq q tp, ← pos_eq r tp, hq.2.1, ← pos_eq (q / tp) m, ← pos_eq (r / tp) m, hq.2.2, hq'.2.2]

/-- Without an intra node size the whole data parallel gang shards, and nothing is replicated. -/
theorem C45_full (cuda : Bool) {n tp r : Nat} (hr : r < n) (htp : 0 < tp) (hd : tp ∣ n) :
    ∃ gs gs', createParallel cuda (world n) r tp = .ok gs ∧ createFsdp cuda gs r none = .ok gs' ∧
      gs'.sdp = gs.dp ∧ gs'.rdp.members = [r] ∧ gs'.dp = gs.dp ∧ gs'.tp = gs.tp := by
  obtain ⟨gs, h1, -⟩ := createParallel_ok (cuda := cuda) hr htp hd
  exact ⟨gs, _, h1, createFsdp_none (postInit_of_ok h1), rfl, rfl, rfl, rfl⟩

/-- On a cpu device with tensor parallelism the hybrid split does not work: `create_gang` is
called on the data parallel gang and insists on the default process group. -/
theorem C45_cpu_tensor_parallel : ∃ gs, createParallel false (world 8) 3 2 = .ok gs ∧
    createFsdp false gs 3 (some 2) = .error .invalidOperation :=
  ⟨_, rfl, rfl⟩

/-- An intra node size that is no size of a node with several processes, or does not divide the data
parallel size, is refused. -/
theorem C45_rejects (cuda : Bool) (gs : Gangs) (r : Nat) (m : Int) (h : m ≤ 1 ∨ ¬ m ∣ gs.dp.size) :
    createFsdp cuda gs r (some m) = .error .value := by
  unfold createFsdp
  by_cases h1 : m ≤ 1
  · simp only [h1, if_true]; rfl
  · have h2 : (gs.dp.size : Int) % m ≠ 0 := fun hc =>
      h.elim h1 fun hd => hd (Int.dvd_of_emod_eq_zero hc)
    simp only [h1, if_false]
    rw [if_pos h2]
    rfl

example : ∃ gs, createParallel false (world 8) 3 2 = .ok gs ∧ ((1 : Int) ≤ 1 ∨ ¬ (1 : Int) ∣ gs.dp.size) ∧
    ((3 : Int) ≤ 1 ∨ ¬ (3 : Int) ∣ gs.dp.size) :=
  ⟨_, rfl, .inl (by decide), .inr (by decide)⟩

/-! ## C46: inconsistent ranks are rejected -/

/-- A `FakeGang` exists only with `0 ≤ rank < size`. -/
theorem C46_fake_gang (rank size : Int) :
    (fakeGang rank size = .ok (rank, size) ↔ 0 ≤ rank ∧ rank < size) ∧
    (¬ (0 ≤ rank ∧ rank < size) → fakeGang rank size = .error .value) := by
  simp only [fakeGang]
  by_cases h1 : size ≤ 0
  · rw [if_pos h1]
    exact ⟨⟨fun h => (by cases h), fun h => by omega⟩, fun _ => rfl⟩
  · rw [if_neg h1]
    by_cases h2 : rank < 0 ∨ rank ≥ size
    · rw [if_pos h2]
      exact ⟨⟨fun h => (by cases h), fun h => by omega⟩, fun _ => rfl⟩
    · rw [if_neg h2]
      exact ⟨⟨fun _ => by omega, fun _ => rfl⟩, fun h => by omega⟩

/-- `create_gang` accepts a list of ranks exactly if they are distinct and at most the size of
the gang (not: less than). -/
theorem C46_ranks_partial (ranks : List Int) (size : Int) :
    (checkRanks ranks size = .ok () ↔ ranks.Nodup ∧ ∀ a ∈ ranks, 0 ≤ a ∧ a ≤ size) ∧
    (checkRanks ranks size ≠ .ok () → checkRanks ranks size = .error .value) := by
  refine ⟨checkRanks_ok, fun h => ?_⟩
  simp only [checkRanks] at h ⊢
  split
  · rfl
  · split
    · rfl
    · next h1 h2 => rw [if_neg h1, if_neg h2] at h; exact absurd rfl h

example : checkRanks [0, 2] 4 = .ok () := rfl

/-- So a rank outside the gang is accepted. -/
theorem C46_outside : checkRanks [0, 4] 4 = .ok () ∧ FakeGang.createGang 0 4 [0, 4] = .ok (some (0, 2)) :=
  ⟨rfl, rfl⟩

/-- What `Gangs.__post_init__` does reject: a coordinator that is not rank 0 of the data
parallel gang, or of neither the tensor parallel nor the pipeline parallel gang. -/
theorem C46_coordinator_partial (gs : Gangs) (r : Nat) :
    gs.postInit r = .ok () ↔
      (gs.root.rank r = 0 → gs.dp.rank r = 0 ∧ (gs.tp.rank r = 0 ∨ gs.pp.rank r = 0)) := by
  simp only [Gangs.postInit]
  by_cases h0 : gs.root.rank r = 0
  · rw [if_pos h0]
    by_cases h1 : gs.dp.rank r ≠ 0 ∨ gs.tp.rank r ≠ 0 ∧ gs.pp.rank r ≠ 0
    · rw [if_pos h1]
      constructor
      · intro h; cases h
      · intro h; have := h h0; omega
    · rw [if_neg h1]
      refine ⟨fun _ _ => by omega, fun _ => rfl⟩
  · rw [if_neg h0]
    exact ⟨fun _ h => absurd h h0, fun _ => rfl⟩

/-- So a coordinator that is not rank 0 of its tensor parallel gang is accepted. -/
theorem C46_coordinator_accepted : ∃ gs : Gangs, gs.root.rank 0 = 0 ∧ gs.tp.rank 0 = 1 ∧
    gs.postInit 0 = .ok () :=
  ⟨⟨⟨[0, 1], true⟩, ⟨[0], false⟩, ⟨[0], false⟩, ⟨[0], false⟩, ⟨[1, 0], false⟩, ⟨[0], false⟩⟩, rfl, rfl, rfl⟩

end Fs2.Props
