import Verif.Generation.BeamSearch
import Verif.Generation.SamplingLemmas
import Mathlib.Data.List.Perm.Subperm
import Mathlib.Data.List.Nodup

/-!
Lemmas about the candidates of a beam.
-/

namespace Fs2.Gen

theorem flatten_getElem? {β : Type} (V : Nat) (hV : 0 < V) (rows : List (List β))
    (h : ∀ row ∈ rows, row.length = V) (j : Nat) :
    rows.flatten[j]? = (rows[j / V]?).bind fun row => row[j % V]? := by
  induction rows generalizing j with
  | nil => simp
  | cons row rows ih =>
    have hl := h row (by simp)
    rw [List.flatten_cons]
    by_cases hj : j < V
    · rw [List.getElem?_append_left (by omega), Nat.div_eq_of_lt hj, Nat.mod_eq_of_lt hj]
      simp
    · rw [List.getElem?_append_right (by omega), hl, ih (fun r hr => h r (List.mem_cons_of_mem _ hr))]
      have h1 : j / V = (j - V) / V + 1 := by
        rw [← Nat.add_div_right _ hV, Nat.sub_add_cancel (by omega)]
      have h2 : j % V = (j - V) % V := by rw [← Nat.mod_eq_sub_mod (by omega)]
      rw [h1, h2]
      simp

theorem flatten_length {β : Type} (V : Nat) (rows : List (List β)) (h : ∀ row ∈ rows, row.length = V) :
    rows.flatten.length = rows.length * V := by
  induction rows with
  | nil => simp
  | cons row rows ih =>
    rw [List.flatten_cons, List.length_append, h row (by simp), ih (fun r hr => h r (List.mem_cons_of_mem _ hr))]
    simp [Nat.add_mul, Nat.add_comm]

/-- The contract of `torch.topk`: the indices of `k` largest values in descending order of the values. -/
def TopIndices (topk : Nat → Nat → Nat → List LogP → Option (List Nat)) : Prop :=
  ∀ (n b k : Nat) (vs : List LogP), k ≤ vs.length → ∃ top, topk n b k vs = some top ∧
    top.length = k ∧ top.Nodup ∧ (∀ j ∈ top, j < vs.length) ∧
    top.Pairwise (fun i j => vs.getD j ⊥ ≤ vs.getD i ⊥) ∧
    ∀ i ∈ top, ∀ j < vs.length, j ∉ top → vs.getD j ⊥ ≤ vs.getD i ⊥

/-- The candidates of a beam. -/
structure Candidates (V B : Nat) (lprobs : List (List LogP)) (scores : List LogP) (next : List Cand) :
    Prop where
  len : next.length = min (2 * B) V
  entry : ∀ x ∈ next, ∃ (row : List LogP) (sc w : LogP) (t : Nat), lprobs[x.seqIdx]? = some row ∧
    scores[x.seqIdx]? = some sc ∧ x.vocab = t ∧ row[t]? = some w ∧ x.score = w + sc
  distinct : next.Pairwise fun x y => ¬ (x.seqIdx = y.seqIdx ∧ x.vocab = y.vocab)
  sorted : next.Pairwise fun x y => y.score ≤ x.score
  complete : (∃ x ∈ next, x.score = ⊥) → ∀ (r t : Nat) (row : List LogP) (sc w : LogP),
    lprobs[r]? = some row → scores[r]? = some sc → row[t]? = some w → w + sc ≠ ⊥ →
    ∃ x ∈ next, x.seqIdx = r ∧ x.vocab = t ∧ x.score = w + sc

theorem algoStep_spec (ops : BeamOps) (htop : TopIndices ops.topk) (n b B V : Nat) (hV : 0 < V)
    (lprobs : List (List LogP)) (scores : List LogP) (hlen : scores.length = lprobs.length)
    (hne : lprobs ≠ []) (hrow : ∀ row ∈ lprobs, row.length = V) :
    ∃ next, algoStep ops n b B lprobs scores = some next ∧ Candidates V B lprobs scores next := by
  obtain ⟨rows, hrows⟩ : ∃ rows, rows = List.zipWith (fun (row : List LogP) (x : LogP) => row.map (· + x))
    lprobs scores := ⟨_, rfl⟩
  have hget : ∀ r : Nat, rows[r]? = (lprobs[r]?).bind fun row => (scores[r]?).map fun x => row.map (· + x) := by
    intro r
    rw [hrows, List.getElem?_zipWith]
    cases lprobs[r]? <;> cases scores[r]? <;> rfl
  have hrowsV : ∀ row ∈ rows, row.length = V := by
    intro row hr
    obtain ⟨r, hr⟩ := List.mem_iff_getElem?.mp hr
    rw [hget] at hr
    simp only [Option.bind_eq_some_iff, Option.map_eq_some_iff] at hr
    obtain ⟨l, h1, x, h2, rfl⟩ := hr
    rw [List.length_map]
    exact hrow l (List.mem_of_getElem? h1)
  have hrl : rows.length = lprobs.length := by rw [hrows]; simp [hlen]
  have hfl := flatten_length V rows hrowsV
  have hNpos : 0 < lprobs.length := List.length_pos_iff.mpr hne
  have hVle : V ≤ rows.flatten.length := by
    rw [hfl, hrl]
    exact Nat.le_mul_of_pos_left V hNpos
  obtain ⟨top, t1, t2, t3, t4, t5, t6⟩ := htop n b (min (2 * B) V) rows.flatten (by omega)
  have hval : ∀ j < rows.flatten.length, ∃ (row : List LogP) (sc w : LogP), lprobs[j / V]? = some row ∧
      scores[j / V]? = some sc ∧ row[j % V]? = some w ∧ rows.flatten[j]? = some (w + sc) := by
    intro j hj
    have h := flatten_getElem? V hV rows hrowsV j
    rw [List.getElem?_eq_getElem hj] at h
    have h' := h.symm
    simp only [Option.bind_eq_some_iff] at h'
    obtain ⟨row', e1, e2⟩ := h'
    rw [hget] at e1
    simp only [Option.bind_eq_some_iff, Option.map_eq_some_iff] at e1
    obtain ⟨row, f1, sc, f2, rfl⟩ := e1
    rw [List.getElem?_map, Option.map_eq_some_iff] at e2
    obtain ⟨w, g1, g2⟩ := e2
    exact ⟨row, sc, w, f1, f2, g1, by rw [List.getElem?_eq_getElem hj, g2]⟩
  have hgetD : ∀ (j : Nat) (x : LogP), rows.flatten[j]? = some x → rows.flatten.getD j ⊥ = x := by
    intro j x h
    rw [List.getD_eq_getElem?_getD, h]
    rfl
  obtain ⟨mk, hmk⟩ : ∃ mk : Nat → Cand, mk = fun j =>
    { seqIdx := j / V, vocab := ((j % V : Nat) : Int), score := rows.flatten.getD j ⊥ } := ⟨_, rfl⟩
  have hmapM : (top.mapM fun j => (rows.flatten[j]?).map fun x =>
      ({ seqIdx := j / V, vocab := ((j % V : Nat) : Int), score := x } : Cand)) = some (top.map mk) := by
    apply mapM_get
    intro j hj
    rw [List.getElem?_eq_getElem (t4 j hj), hmk]
    simp only [Option.map_some, hgetD _ _ (List.getElem?_eq_getElem (t4 j hj))]
  have hhead : lprobs.head?.map (·.length) = some V := by
    obtain ⟨row, rest, hr⟩ := List.exists_cons_of_ne_nil hne
    rw [hr]
    simp [hrow row (by rw [hr]; simp)]
  have hback : ∀ i j : Nat, i / V = j / V → i % V = j % V → i = j := by
    intro i j h1 h2
    rw [← Nat.div_add_mod i V, ← Nat.div_add_mod j V, h1, h2]
  refine ⟨top.map mk, ?_, ?_, ?_, ?_, ?_, ?_⟩
  · unfold algoStep
    rw [← hrows]
    simp only [hhead, Option.bind_eq_bind, Option.bind_some, t1]
    exact hmapM
  · rw [List.length_map, t2]
  · intro x hx
    obtain ⟨j, hj, rfl⟩ := List.mem_map.mp hx
    obtain ⟨row, sc, w, h1, h2, h3, h4⟩ := hval j (t4 j hj)
    refine ⟨row, sc, w, j % V, ?_, ?_, ?_, h3, ?_⟩
    · rw [hmk]; exact h1
    · rw [hmk]; exact h2
    · rw [hmk]
    · rw [hmk]; exact hgetD j _ h4
  · rw [List.pairwise_map]
    refine List.Pairwise.imp ?_ t3
    intro i j hij ⟨h1, h2⟩
    rw [hmk] at h1 h2
    simp only at h1 h2
    exact hij (hback i j h1 (by exact_mod_cast h2))
  · rw [List.pairwise_map]
    refine List.Pairwise.imp ?_ t5
    intro i j hij
    rw [hmk]
    exact hij
  · rintro ⟨x, hx, hbot⟩ r t row sc w h1 h2 h3 h4
    obtain ⟨i, hi, rfl⟩ := List.mem_map.mp hx
    rw [hmk] at hbot
    simp only at hbot
    have hrlen := hrow row (List.mem_of_getElem? h1)
    have htV : t < V := by
      have := (List.getElem?_eq_some_iff.mp h3).1
      omega
    have hdiv : (r * V + t) / V = r := by
      rw [Nat.mul_comm, Nat.mul_add_div hV, Nat.div_eq_of_lt htV, Nat.add_zero]
    have hmod : (r * V + t) % V = t := by
      rw [Nat.mul_comm, Nat.mul_add_mod, Nat.mod_eq_of_lt htV]
    have hv : rows.flatten[r * V + t]? = some (w + sc) := by
      rw [flatten_getElem? V hV rows hrowsV, hdiv, hmod, hget, h1, h2]
      simp [h3]
    have hlt := (List.getElem?_eq_some_iff.mp hv).1
    have hin : r * V + t ∈ top := by
      by_contra hno
      have := t6 i hi _ hlt hno
      rw [hbot, hgetD _ _ hv, le_bot_iff] at this
      exact h4 this
    refine ⟨mk (r * V + t), List.mem_map.mpr ⟨_, hin, rfl⟩, ?_, ?_, ?_⟩
    · rw [hmk]; exact hdiv
    · rw [hmk]; simp only [hmod]
    · rw [hmk]; exact hgetD _ _ hv

/-- A descending list with enough finite entries begins with finite entries. -/
theorem sorted_take (l : List Cand) (h : l.Pairwise fun x y => y.score ≤ x.score) (B : Nat)
    (hB : B ≤ l.countP fun x => decide (x.score ≠ ⊥)) : ∀ x ∈ l.take B, x.score ≠ ⊥ := by
  induction l generalizing B with
  | nil => simp
  | cons y l ih =>
    cases B with
    | zero => simp
    | succ B =>
      rw [List.pairwise_cons] at h
      rw [List.countP_cons] at hB
      by_cases hy : y.score = ⊥
      · exfalso
        have : l.countP (fun x => decide (x.score ≠ ⊥)) = 0 := by
          rw [List.countP_eq_zero]
          intro x hx
          have := h.1 x hx
          rw [hy, le_bot_iff] at this
          simp [this]
        rw [this] at hB
        simp [hy] at hB
      · intro x hx
        rw [List.take_succ_cons, List.mem_cons] at hx
        rcases hx with rfl | hx
        · exact hy
        · exact ih h.2 B (by split at hB <;> omega) x hx

/-- At most one candidate per row has a given token. -/
theorem count_token (N : Nat) (next : List Cand) (t : Int)
    (hd : next.Pairwise fun x y => ¬ (x.seqIdx = y.seqIdx ∧ x.vocab = y.vocab))
    (hN : ∀ x ∈ next, x.seqIdx < N) : (next.filter fun x => x.vocab == t).length ≤ N := by
  have h1 : ((next.filter fun x => x.vocab == t).map (·.seqIdx)).Nodup := by
    rw [List.Nodup, List.pairwise_map]
    have := hd.filter (fun x => x.vocab == t)
    refine List.Pairwise.imp_of_mem ?_ this
    intro x y hx hy hxy heq
    have hx := (List.mem_filter.mp hx).2
    have hy := (List.mem_filter.mp hy).2
    rw [beq_iff_eq] at hx hy
    exact hxy ⟨heq, by rw [hx, hy]⟩
  have h2 : ((next.filter fun x => x.vocab == t).map (·.seqIdx)) ⊆ List.range N := by
    intro r hr
    obtain ⟨x, hx, rfl⟩ := List.mem_map.mp hr
    exact List.mem_range.mpr (hN x (List.mem_of_mem_filter hx))
  have := (List.subperm_of_subset h1 h2).length_le
  simpa using this

/-- With enough finite tokens other than EOS a beam stays full and finite. -/
theorem choose_live (V B N eos : Nat) (lprobs : List (List LogP)) (scores : List LogP) (next : List Cand)
    (hc : Candidates V B lprobs scores next) (hlen : scores.length = lprobs.length)
    (hN : lprobs.length = N) (hNpos : 1 ≤ N) (hNB : N ≤ B) (hVB : 2 * B ≤ V)
    (hfin : ∀ sc ∈ scores, sc ≠ ⊥)
    (hrow : ∀ row ∈ lprobs, ∃ ts : List Nat, ts.Nodup ∧ ts.length = B ∧
      ∀ t ∈ ts, t ≠ eos ∧ ∃ w : LogP, row[t]? = some w ∧ w ≠ ⊥) :
    ((next.filter fun x => x.vocab != (eos : Int)).take B).length = B ∧
    (∀ x ∈ (next.filter fun x => x.vocab != (eos : Int)).take B, x.score ≠ ⊥) ∧
    (next.take B).length = B ∧ ∀ x ∈ next.take B, x.score ≠ ⊥ := by
  have hlenn : next.length = 2 * B := by rw [hc.len]; omega
  have hidx : ∀ x ∈ next, x.seqIdx < N := by
    intro x hx
    obtain ⟨row, sc, w, t, h1, -⟩ := hc.entry x hx
    rw [← hN]
    exact (List.getElem?_eq_some_iff.mp h1).1
  have hsplit : (next.filter fun x => x.vocab != (eos : Int)).length +
      (next.filter fun x => x.vocab == (eos : Int)).length = next.length := by
    have h := (List.filter_append_perm (fun x : Cand => x.vocab == (eos : Int)) next).length_eq
    rw [List.length_append] at h
    rw [← h, Nat.add_comm]
    rfl
  have hcount := count_token N next eos hc.distinct hidx
  have hM : B ≤ (next.filter fun x => x.vocab != (eos : Int)).length := by omega
  have hcnt : B ≤ (next.filter fun x => x.vocab != (eos : Int)).countP fun x => decide (x.score ≠ ⊥) := by
    by_cases hbot : ∃ x ∈ next, x.score = ⊥
    · obtain ⟨row0, hr0⟩ : ∃ row, lprobs[0]? = some row := ⟨_, List.getElem?_eq_getElem (by omega)⟩
      obtain ⟨sc0, hs0⟩ : ∃ sc, scores[0]? = some sc := ⟨_, List.getElem?_eq_getElem (by omega)⟩
      obtain ⟨ts, g1, g2, g3⟩ := hrow row0 (List.mem_of_getElem? hr0)
      rw [List.countP_eq_length_filter, ← g2]
      have hsub : (ts.map fun t : Nat => (t : Int)) ⊆
          (((next.filter fun x => x.vocab != (eos : Int)).filter fun x => decide (x.score ≠ ⊥)).map (·.vocab)) := by
        intro v hv
        obtain ⟨t, ht, rfl⟩ := List.mem_map.mp hv
        obtain ⟨h1, w, h2, h3⟩ := g3 t ht
        have hne : w + sc0 ≠ ⊥ := by
          rw [Ne, WithBot.add_eq_bot]
          exact fun h => h.elim h3 (hfin sc0 (List.mem_of_getElem? hs0))
        obtain ⟨x, hx, e1, e2, e3⟩ := hc.complete hbot 0 t row0 sc0 w hr0 hs0 h2 hne
        refine List.mem_map.mpr ⟨x, ?_, e2⟩
        simp only [List.mem_filter, decide_eq_true_eq, bne_iff_ne]
        refine ⟨⟨hx, ?_⟩, by rw [e3]; exact hne⟩
        rw [e2]
        exact_mod_cast h1
      have hnd : (ts.map fun t : Nat => (t : Int)).Nodup := by
        apply List.Nodup.map _ g1
        intro a b h
        simpa using h
      have := (List.subperm_of_subset hnd hsub).length_le
      simpa using this
    · rw [List.countP_eq_length.mpr]
      · exact hM
      · intro x hx
        simp only [decide_eq_true_eq]
        intro h
        exact hbot ⟨x, List.mem_of_mem_filter hx, h⟩
  refine ⟨by rw [List.length_take]; omega, ?_, by rw [List.length_take]; omega, ?_⟩
  · exact sorted_take _ (hc.sorted.filter _) B hcnt
  · apply sorted_take _ hc.sorted B
    exact le_trans hcnt (List.Sublist.countP_le List.filter_sublist)

/-- At the last step a full beam ends as a whole. -/
theorem choose_last (V B eos : Nat) (lprobs : List (List LogP)) (scores : List LogP) (next : List Cand)
    (hc : Candidates V B lprobs scores next) (hlen : scores.length = lprobs.length)
    (hN : lprobs.length = B) (hB : 1 ≤ B) (hVB : 2 * B ≤ V) (hfin : ∀ sc ∈ scores, sc ≠ ⊥)
    (hrow : ∀ row ∈ lprobs, (∃ w : LogP, row[eos]? = some w ∧ w ≠ ⊥) ∧
      ∀ (t : Nat) (w : LogP), t ≠ eos → row[t]? = some w → w = ⊥) :
    (next.take B).length = B ∧ ∀ x ∈ next.take B, x.score ≠ ⊥ ∧ x.vocab = eos := by
  have hlenn : next.length = 2 * B := by rw [hc.len]; omega
  have hidx : ∀ x ∈ next, x.seqIdx < B := by
    intro x hx
    obtain ⟨row, sc, w, t, h1, -⟩ := hc.entry x hx
    rw [← hN]
    exact (List.getElem?_eq_some_iff.mp h1).1
  have hother : ∀ x ∈ next, x.score ≠ ⊥ → x.vocab = eos := by
    intro x hx hs
    obtain ⟨row, sc, w, t, h1, h2, h3, h4, h5⟩ := hc.entry x hx
    by_contra hno
    have : w = ⊥ := (hrow row (List.mem_of_getElem? h1)).2 t w (by
      rintro rfl
      exact hno h3) h4
    rw [h5, this] at hs
    exact hs (WithBot.bot_add _)
  have hbot : ∃ x ∈ next, x.score = ⊥ := by
    by_contra hno
    have hall : next.filter (fun x => x.vocab == (eos : Int)) = next := by
      rw [List.filter_eq_self]
      intro x hx
      rw [beq_iff_eq]
      exact hother x hx fun h => hno ⟨x, hx, h⟩
    have := count_token B next eos hc.distinct hidx
    rw [hall] at this
    omega
  have hcnt : B ≤ next.countP fun x => decide (x.score ≠ ⊥) := by
    rw [List.countP_eq_length_filter]
    have hsub : List.range B ⊆ (next.filter fun x => decide (x.score ≠ ⊥)).map (·.seqIdx) := by
      intro r hr
      rw [List.mem_range] at hr
      obtain ⟨row, h1⟩ : ∃ row, lprobs[r]? = some row := ⟨_, List.getElem?_eq_getElem (by omega)⟩
      obtain ⟨sc, h2⟩ : ∃ sc, scores[r]? = some sc := ⟨_, List.getElem?_eq_getElem (by omega)⟩
      obtain ⟨⟨w, h3, h4⟩, -⟩ := hrow row (List.mem_of_getElem? h1)
      have hne : w + sc ≠ ⊥ := by
        rw [Ne, WithBot.add_eq_bot]
        exact fun h => h.elim h4 (hfin sc (List.mem_of_getElem? h2))
      obtain ⟨x, hx, e1, e2, e3⟩ := hc.complete hbot r eos row sc w h1 h2 h3 hne
      refine List.mem_map.mpr ⟨x, ?_, e1⟩
      simp only [List.mem_filter, decide_eq_true_eq]
      exact ⟨hx, by rw [e3]; exact hne⟩
    have := (List.subperm_of_subset List.nodup_range hsub).length_le
    simpa using this
  refine ⟨by rw [List.length_take]; omega, fun x hx => ?_⟩
  have := sorted_take _ hc.sorted B hcnt x hx
  exact ⟨this, hother x (List.mem_of_mem_take hx) this⟩

theorem insertDesc_perm {β : Type} (key : β → LogP) (x : β) (l : List β) :
    (insertDesc key x l).Perm (x :: l) := by
  induction l with
  | nil => exact List.Perm.refl _
  | cons y ys ih =>
    unfold insertDesc
    split
    · exact List.Perm.refl _
    · exact (ih.cons y).trans (List.Perm.swap x y ys)

theorem sortDesc_perm {β : Type} (key : β → LogP) (l : List β) : (sortDesc key l).Perm l := by
  induction l with
  | nil => exact List.Perm.refl _
  | cons x l ih => exact (insertDesc_perm key x _).trans (ih.cons x)

theorem insertDesc_sorted {β : Type} (key : β → LogP) (x : β) (l : List β)
    (h : l.Pairwise fun a b => key b ≤ key a) : (insertDesc key x l).Pairwise fun a b => key b ≤ key a := by
  induction l with
  | nil => simp [insertDesc]
  | cons y ys ih =>
    obtain ⟨h1, h2⟩ := List.pairwise_cons.mp h
    unfold insertDesc
    split
    · rename_i hle
      refine List.pairwise_cons.mpr ⟨?_, h⟩
      intro z hz
      rcases List.mem_cons.mp hz with rfl | hz
      · exact hle
      · exact le_trans (h1 z hz) hle
    · rename_i hle
      refine List.pairwise_cons.mpr ⟨?_, ih h2⟩
      intro z hz
      rcases List.mem_cons.mp ((insertDesc_perm key x ys).subset hz) with rfl | hz
      · exact le_of_lt (not_le.mp hle)
      · exact h1 z hz

theorem sortDesc_sorted {β : Type} (key : β → LogP) (l : List β) :
    (sortDesc key l).Pairwise fun a b => key b ≤ key a := by
  induction l with
  | nil => exact List.Pairwise.nil
  | cons x l ih => exact insertDesc_sorted key x _ ih

end Fs2.Gen
