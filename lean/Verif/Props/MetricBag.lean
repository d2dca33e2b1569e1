import Verif.Metrics.Bag

/-!
Property C62: transactions, resets and states of the metric bag.
-/

namespace Fs2.Props

open Fs2.Metric

variable {M S : Type}

/-! ### Specification -/

/-- The value of the metric with a name. -/
def metricValue (w : World M) (name : String) : Option M := (find name w.metrics).bind fun r => w.heap[r]?

/-- The names in the bag. -/
def metricNames (w : World M) : List String := w.metrics.map (·.1)

/-- The operation ends a transaction. -/
def EndsUpdates : Op M S → Prop
  | .commitUpdates | .rollbackUpdates => True
  | _ => False

/-- The worlds that arise. -/
def Arises (lib : Lib M S) (w : World M) : Prop := ∃ ops, exec lib ops World.init = w

/-- The metrics behave: those of one kind exchange their states. -/
def GoodLib {K : Type} (lib : Lib M S) (kind : M → K) : Prop :=
  ∀ m m', kind m = kind m' → lib.load m (lib.save m') = (m', true)

/-! ### The invariant -/

section

variable {lib : Lib M S}

private theorem find_mem {β : Type} {name : String} {l : List (String × β)} {x : β} (h : find name l = some x) :
    (name, x) ∈ l := by
  induction l with
  | nil => cases h
  | cons y l ih =>
    obtain ⟨n, z⟩ := y
    unfold find at h
    split at h
    · rename_i hn
      cases h
      subst hn
      simp
    · exact List.mem_cons_of_mem _ (ih h)

private theorem find_none {β : Type} {name : String} {l : List (String × β)} :
    find name l = none ↔ name ∉ l.map (·.1) := by
  induction l with
  | nil => simp [find]
  | cons y l ih =>
    obtain ⟨n, z⟩ := y
    unfold find
    split
    · rename_i hn
      simp [hn]
    · rename_i hn
      rw [ih]
      simp [Ne.symm hn]

private theorem find_of_mem {β : Type} {name : String} {l : List (String × β)} {x : β}
    (hnd : (l.map (·.1)).Nodup) (h : (name, x) ∈ l) : find name l = some x := by
  induction l with
  | nil => cases h
  | cons y l ih =>
    obtain ⟨n, z⟩ := y
    rw [List.map_cons, List.nodup_cons] at hnd
    unfold find
    rcases List.mem_cons.mp h with h | h
    · cases h
      simp
    · split
      · rename_i hn
        subst hn
        exact absurd (List.mem_map_of_mem (f := (·.1)) h) hnd.1
      · exact ih hnd.2 h

private structure Inv (w : World M) : Prop where
  valid : ∀ x ∈ w.metrics, x.2 < w.heap.length
  knownValid : ∀ r ∈ w.known, r < w.heap.length
  names : (metricNames w).Nodup
  orig : ∀ o, w.original = some o → (∀ x ∈ o, x.2 < w.heap.length ∧ x.2 ∉ w.known ∧ ∀ y ∈ w.metrics, y.2 ≠ x.2) ∧
    (o.map (·.1)).Nodup

/-- `deepcopy` gives fresh references with the same values. -/
private theorem copy_spec (l : List (String × Nat)) (memo : List (Nat × Nat)) (heap : List M) (base : Nat)
    (hbase : base ≤ heap.length) (hl : ∀ x ∈ l, x.2 < heap.length)
    (hmemo : ∀ r r', memo.lookup r = some r' → base ≤ r' ∧ r' < heap.length ∧ heap[r']? = heap[r]?) :
    (∃ ext, (copyRefs l memo heap).2 = heap ++ ext) ∧
    (copyRefs l memo heap).1.map (·.1) = l.map (·.1) ∧
    (∀ x ∈ (copyRefs l memo heap).1, base ≤ x.2 ∧ x.2 < (copyRefs l memo heap).2.length) ∧
    ∀ name, (find name (copyRefs l memo heap).1).bind (fun r => (copyRefs l memo heap).2[r]?) =
      (find name l).bind fun r => heap[r]? := by
  induction l generalizing memo heap with
  | nil => exact ⟨⟨[], by simp [copyRefs]⟩, rfl, by simp [copyRefs], by simp [copyRefs, find]⟩
  | cons y l ih =>
    obtain ⟨n, r⟩ := y
    have hr : r < heap.length := hl (n, r) (by simp)
    unfold copyRefs
    cases hm : memo.lookup r with
    | some r' =>
      simp only
      obtain ⟨h1, h2, h3⟩ := hmemo r r' hm
      obtain ⟨⟨ext, i1⟩, i2, i3, i4⟩ := ih memo heap hbase (fun x hx => hl x (List.mem_cons_of_mem _ hx)) hmemo
      refine ⟨⟨ext, i1⟩, by simp [i2], ?_, ?_⟩
      · intro x hx
        rcases List.mem_cons.mp hx with rfl | hx
        · refine ⟨h1, ?_⟩
          rw [i1, List.length_append]
          exact Nat.lt_of_lt_of_le h2 (Nat.le_add_right _ _)
        · exact i3 x hx
      · intro name
        unfold find
        split
        · simp only [Option.bind_some]
          rw [i1, List.getElem?_append_left h2, h3]
        · exact i4 name
    | none =>
      rw [List.getElem?_eq_getElem hr]
      simp only
      obtain ⟨⟨ext, i1⟩, i2, i3, i4⟩ := ih ((r, heap.length) :: memo) (heap ++ [heap[r]])
        (by rw [List.length_append]; omega)
        (fun x hx => by
          have := hl x (List.mem_cons_of_mem _ hx)
          rw [List.length_append]
          omega)
        (by
          intro a b hab
          rw [List.lookup_cons] at hab
          cases hc : (a == r) with
          | true =>
            rw [hc] at hab
            cases hab
            have hc := beq_iff_eq.mp hc
            subst hc
            refine ⟨hbase, by simp, ?_⟩
            rw [List.getElem?_append_right (Nat.le_refl _), List.getElem?_append_left hr]
            simp [List.getElem?_eq_getElem hr]
          | false =>
            rw [hc] at hab
            obtain ⟨g1, g2, g3⟩ := hmemo a b hab
            refine ⟨g1, by rw [List.length_append]; omega, ?_⟩
            rw [List.getElem?_append_left g2, g3]
            have ha : a < heap.length := by
              rw [List.getElem?_eq_getElem g2] at g3
              exact (List.getElem?_eq_some_iff.mp g3.symm).1
            rw [List.getElem?_append_left ha])
      refine ⟨⟨heap[r] :: ext, by rw [i1]; simp⟩, by simp [i2], ?_, ?_⟩
      · intro x hx
        rcases List.mem_cons.mp hx with rfl | hx
        · refine ⟨hbase, ?_⟩
          rw [i1]
          simp
        · exact i3 x hx
      · intro name
        unfold find
        split
        · simp only [Option.bind_some]
          rw [i1, List.append_assoc, List.getElem?_append_right (Nat.le_refl _)]
          simp [List.getElem?_eq_getElem hr]
        · rw [i4 name]
          cases hf : find name l with
          | none => rfl
          | some k =>
            simp only [Option.bind_some]
            rw [List.getElem?_append_left (hl (name, k) (List.mem_cons_of_mem _ (find_mem hf)))]

private theorem reset_spec (l : List (String × Nat)) (heap : List M) (f : M → M) :
    (l.foldl (fun heap x => heap.modify x.2 f) heap).length = heap.length ∧
    ∀ k, (∀ x ∈ l, x.2 ≠ k) → (l.foldl (fun heap x => heap.modify x.2 f) heap)[k]? = heap[k]? := by
  induction l generalizing heap with
  | nil => exact ⟨rfl, fun _ _ => rfl⟩
  | cons y l ih =>
    obtain ⟨h1, h2⟩ := ih (heap.modify y.2 f)
    rw [List.foldl_cons]
    refine ⟨by rw [h1, List.length_modify], fun k hk => ?_⟩
    rw [h2 k fun x hx => hk x (List.mem_cons_of_mem _ hx), List.getElem?_modify]
    simp [hk y (by simp)]

private theorem load_spec (sd : List (String × Option S)) (l : List (String × Nat)) (heap : List M) :
    (loadLoop lib sd l heap).1.length = heap.length ∧
    ∀ k, (∀ x ∈ l, x.2 ≠ k) → (loadLoop lib sd l heap).1[k]? = heap[k]? := by
  induction l generalizing heap with
  | nil => exact ⟨rfl, fun _ _ => rfl⟩
  | cons y l ih =>
    obtain ⟨n, r⟩ := y
    unfold loadLoop
    split
    · exact ⟨rfl, fun _ _ => rfl⟩
    · exact ⟨rfl, fun _ _ => rfl⟩
    · rename_i s _
      split
      · exact ⟨rfl, fun _ _ => rfl⟩
      · rename_i m _
        simp only
        split
        · obtain ⟨h1, h2⟩ := ih (heap.set r (lib.load m s).1)
          refine ⟨by rw [h1, List.length_set], fun k hk => ?_⟩
          rw [h2 k fun x hx => hk x (List.mem_cons_of_mem _ hx), List.getElem?_set_ne (hk (n, r) (by simp))]
        · refine ⟨by rw [List.length_set], fun k hk => ?_⟩
          rw [List.getElem?_set_ne (hk (n, r) (by simp))]

/-- Operations within a transaction: the invariant stays, and the copy is not touched. -/
private theorem apply_inv (op : Op M S) (w : World M) (h : Inv w) :
    Inv (apply lib op w).1 ∧ (¬ EndsUpdates op → ∀ o, w.original = some o → (apply lib op w).1.original = some o ∧
      ∀ x ∈ o, (apply lib op w).1.heap[x.2]? = w.heap[x.2]?) := by
  obtain ⟨hv, hk, hn, ho⟩ := h
  have keep : Inv w ∧ (¬ EndsUpdates op → ∀ o, w.original = some o → w.original = some o ∧
      ∀ x ∈ o, w.heap[x.2]? = w.heap[x.2]?) := ⟨⟨hv, hk, hn, ho⟩, fun _ o h => ⟨h, fun _ _ => rfl⟩⟩
  cases op with
  | create m =>
    refine ⟨⟨?_, ?_, hn, ?_⟩, ?_⟩
    · intro x hx
      have := hv x hx
      simp [apply]
      omega
    · intro r hr
      simp only [apply, List.mem_cons] at hr
      simp only [apply, List.length_append, List.length_singleton]
      rcases hr with rfl | hr
      · omega
      · have := hk r hr
        omega
    · intro o hoo
      obtain ⟨h1, h2⟩ := ho o hoo
      refine ⟨fun x hx => ?_, h2⟩
      obtain ⟨g1, g2, g3⟩ := h1 x hx
      refine ⟨?_, ?_, g3⟩
      · simp [apply]
        omega
      · simp only [apply, List.mem_cons, not_or]
        exact ⟨by omega, g2⟩
    · intro _ o hoo
      refine ⟨hoo, fun x hx => ?_⟩
      have := ((ho o hoo).1 x hx).1
      simp only [apply]
      rw [List.getElem?_append_left this]
  | add name r =>
    simp only [apply]
    by_cases h1 : r ∉ w.known
    · rw [if_pos h1]
      exact keep
    · rw [if_neg h1]
      by_cases h2 : (find name w.metrics).isSome = true
      · rw [if_pos h2]
        exact keep
      · rw [if_neg h2]
        have h1 : r ∈ w.known := Decidable.not_not.mp h1
        refine ⟨⟨?_, hk, ?_, ?_⟩, fun _ o h => ⟨h, fun _ _ => rfl⟩⟩
        · intro x hx
          rcases List.mem_append.mp hx with hx | hx
          · exact hv x hx
          · rw [List.mem_singleton] at hx
            subst hx
            exact hk r h1
        · unfold metricNames at hn ⊢
          simp only [List.map_append, List.map_cons, List.map_nil]
          rw [List.nodup_append]
          refine ⟨hn, by simp, ?_⟩
          intro a ha b hb hab
          rw [List.mem_singleton] at hb
          have := find_none.mp (Option.not_isSome_iff_eq_none.mp h2)
          rw [hab, hb] at ha
          exact this ha
        · intro o hoo
          obtain ⟨g1, g2⟩ := ho o hoo
          refine ⟨fun x hx => ?_, g2⟩
          obtain ⟨k1, k2, k3⟩ := g1 x hx
          refine ⟨k1, k2, fun y hy => ?_⟩
          rcases List.mem_append.mp hy with hy | hy
          · exact k3 y hy
          · rw [List.mem_singleton] at hy
            subst hy
            intro heq
            simp only at heq
            rw [← heq] at k2
            exact k2 h1
  | get name =>
    simp only [apply]
    split
    · exact keep
    · rename_i r hr
      have hm := find_mem hr
      refine ⟨⟨hv, ?_, hn, ?_⟩, fun _ o h => ⟨h, fun _ _ => rfl⟩⟩
      · intro q hq
        rcases List.mem_cons.mp hq with rfl | hq
        · exact hv _ hm
        · exact hk q hq
      · intro o hoo
        obtain ⟨g1, g2⟩ := ho o hoo
        refine ⟨fun x hx => ?_, g2⟩
        obtain ⟨k1, k2, k3⟩ := g1 x hx
        refine ⟨k1, ?_, k3⟩
        simp only [List.mem_cons, not_or]
        exact ⟨fun heq => k3 _ hm heq.symm, k2⟩
  | mutate r f =>
    simp only [apply]
    by_cases h1 : r ∉ w.known
    · rw [if_pos h1]
      exact keep
    · rw [if_neg h1]
      have h1 : r ∈ w.known := Decidable.not_not.mp h1
      refine ⟨⟨?_, ?_, hn, ?_⟩, ?_⟩
      · intro x hx
        rw [List.length_modify]
        exact hv x hx
      · intro q hq
        rw [List.length_modify]
        exact hk q hq
      · intro o hoo
        rw [List.length_modify]
        exact ho o hoo
      · intro _ o hoo
        refine ⟨hoo, fun x hx => ?_⟩
        have := ((ho o hoo).1 x hx).2.1
        simp only [List.getElem?_modify]
        have hne : r ≠ x.2 := fun h => this (by rw [← h]; exact h1)
        simp [hne]
  | beginUpdates =>
    simp only [apply]
    unfold beginUpdates
    split
    · exact keep
    · rename_i hnone
      split
      · obtain ⟨⟨ext, c1⟩, c2, c3, -⟩ := copy_spec w.metrics [] w.heap w.heap.length (Nat.le_refl _) hv (by simp)
        have hlen : w.heap.length ≤ (copyRefs w.metrics [] w.heap).2.length := by
          rw [c1, List.length_append]
          omega
        refine ⟨⟨?_, ?_, hn, ?_⟩, fun _ o h => by rw [hnone] at h; cases h⟩
        · intro x hx
          have := hv x hx
          simp only
          omega
        · intro r hr
          have := hk r hr
          simp only
          omega
        · intro o hoo
          simp only [Option.some.injEq] at hoo
          subst hoo
          refine ⟨fun x hx => ⟨(c3 x hx).2, ?_, ?_⟩, by rw [c2]; exact hn⟩
          · intro hmem
            have h1 := hk _ hmem
            have h2 := (c3 x hx).1
            omega
          · intro y hy heq
            have h1 := hv y hy
            have h2 := (c3 x hx).1
            omega
      · exact keep
  | commitUpdates =>
    refine ⟨?_, fun h => absurd trivial h⟩
    simp only [apply]
    unfold commitUpdates
    split
    · exact keep.1
    · exact ⟨hv, hk, hn, fun o h => by cases h⟩
  | rollbackUpdates =>
    refine ⟨?_, fun h => absurd trivial h⟩
    simp only [apply]
    unfold rollbackUpdates
    split
    · exact keep.1
    · rename_i o hoo
      obtain ⟨g1, g2⟩ := ho o hoo
      exact ⟨fun x hx => (g1 x hx).1, hk, g2, fun o h => by cases h⟩
  | resetMetrics =>
    obtain ⟨r1, r2⟩ := reset_spec w.metrics w.heap lib.reset
    refine ⟨⟨?_, ?_, hn, ?_⟩, ?_⟩
    · intro x hx
      simp only [apply, resetMetrics]
      rw [r1]
      exact hv x hx
    · intro r hr
      simp only [apply, resetMetrics]
      rw [r1]
      exact hk r hr
    · intro o hoo
      simp only [apply, resetMetrics]
      rw [r1]
      exact ho o hoo
    · intro _ o hoo
      refine ⟨hoo, fun x hx => ?_⟩
      simp only [apply, resetMetrics]
      exact r2 _ ((ho o hoo).1 x hx).2.2
  | loadStateDict sd =>
    obtain ⟨r1, r2⟩ := load_spec (lib := lib) sd w.metrics w.heap
    have hw : (apply lib (.loadStateDict sd) w).1 = { w with heap := (loadLoop lib sd w.metrics w.heap).1 } := by
      simp only [apply, loadStateDict]
      split
      · rfl
      · split <;> rfl
    rw [hw]
    refine ⟨⟨?_, ?_, hn, ?_⟩, ?_⟩
    · intro x hx
      simp only
      rw [r1]
      exact hv x hx
    · intro r hr
      simp only
      rw [r1]
      exact hk r hr
    · intro o hoo
      simp only
      rw [r1]
      exact ho o hoo
    · intro _ o hoo
      exact ⟨hoo, fun x hx => r2 _ ((ho o hoo).1 x hx).2.2⟩

private theorem exec_inv (ops : List (Op M S)) (w : World M) (h : Inv w) : Inv (exec lib ops w) := by
  unfold exec
  induction ops generalizing w with
  | nil => exact h
  | cons op ops ih => exact ih _ (apply_inv op w h).1

private theorem arises_inv {w : World M} (h : Arises lib w) : Inv w := by
  obtain ⟨ops, rfl⟩ := h
  apply exec_inv
  exact ⟨by simp [World.init], by simp [World.init], by simp [metricNames, World.init], by simp [World.init]⟩

private theorem exec_keeps (ops : List (Op M S)) (w : World M) (h : Inv w) (hno : ∀ op ∈ ops, ¬ EndsUpdates op)
    (o : List (String × Nat)) (ho : w.original = some o) :
    (exec lib ops w).original = some o ∧ ∀ x ∈ o, (exec lib ops w).heap[x.2]? = w.heap[x.2]? := by
  unfold exec
  induction ops generalizing w with
  | nil => exact ⟨ho, fun _ _ => rfl⟩
  | cons op ops ih =>
    obtain ⟨h1, h2⟩ := apply_inv (lib := lib) op w h
    obtain ⟨h3, h4⟩ := h2 (hno op (by simp)) o ho
    obtain ⟨h5, h6⟩ := ih _ h1 (fun x hx => hno x (List.mem_cons_of_mem _ hx)) h3
    exact ⟨h5, fun x hx => by rw [List.foldl_cons, h6 x hx, h4 x hx]⟩

end

/-! ### C62 -/

/-- **Rollback.** After `begin_updates`, anything a client does (updates through the bag or through metrics
it holds, additions, resets, loads that succeed or fail half-way, and exceptions of any kind), and
`rollback_updates`, the bag has the same metrics with the same values as before, and no transaction is
pending. -/
theorem C62_rollback (lib : Lib M S) (w : World M) (hw : Arises lib w)
    (hbegin : (beginUpdates lib w).2 = .ok ()) (ops : List (Op M S)) (hops : ∀ op ∈ ops, ¬ EndsUpdates op) :
    (rollbackUpdates (exec lib ops (beginUpdates lib w).1)).2 = .ok () ∧
    metricNames (rollbackUpdates (exec lib ops (beginUpdates lib w).1)).1 = metricNames w ∧
    (∀ name, metricValue (rollbackUpdates (exec lib ops (beginUpdates lib w).1)).1 name = metricValue w name) ∧
    (rollbackUpdates (exec lib ops (beginUpdates lib w).1)).1.original = none := by
  have hinv := arises_inv hw
  have hb := (apply_inv (lib := lib) .beginUpdates w hinv).1
  simp only [apply] at hb
  have hstart : (beginUpdates lib w).1 = { w with
      heap := (copyRefs w.metrics [] w.heap).2, original := some (copyRefs w.metrics [] w.heap).1 } := by
    unfold beginUpdates at hbegin ⊢
    split
    · rename_i h
      rw [h] at hbegin
      cases hbegin
    · rename_i h
      rw [h] at hbegin
      simp only at hbegin
      split
      · rfl
      · rename_i hc
        rw [if_neg hc] at hbegin
        cases hbegin
  obtain ⟨k1, k2⟩ := exec_keeps (lib := lib) ops _ hb hops (copyRefs w.metrics [] w.heap).1 (by rw [hstart])
  obtain ⟨-, c2, -, c4⟩ := copy_spec w.metrics [] w.heap w.heap.length (Nat.le_refl _) hinv.valid (by simp)
  unfold rollbackUpdates
  rw [k1]
  refine ⟨rfl, c2, fun name => ?_, rfl⟩
  unfold metricValue
  simp only
  rw [← c4 name]
  cases hf : find name (copyRefs w.metrics [] w.heap).1 with
  | none => rfl
  | some r =>
    simp only [Option.bind_some]
    rw [k2 _ (find_mem hf), hstart]

/-- **Commit.** `commit_updates` succeeds exactly within a transaction, and keeps names and values. -/
theorem C62_commit (w : World M) :
    ((commitUpdates w).2 = .ok () ↔ w.original.isSome) ∧ metricNames (commitUpdates w).1 = metricNames w ∧
    (∀ name, metricValue (commitUpdates w).1 name = metricValue w name) ∧ (commitUpdates w).1.original = none := by
  unfold commitUpdates
  split
  · rename_i h
    simp [h]
  · rename_i o h
    simp [h, metricNames, metricValue]

/-- **Misuse.** A second `begin_updates`, and `commit_updates` or `rollback_updates` without a transaction,
raise and change nothing; a `begin_updates` that raises changes nothing, and one that succeeds changes no
value. -/
theorem C62_misuse (lib : Lib M S) (w : World M) :
    (w.original.isSome → beginUpdates lib w = (w, .error .invalidOperation)) ∧
    (w.original = none → commitUpdates w = (w, .error .invalidOperation) ∧
      rollbackUpdates w = (w, .error .invalidOperation)) ∧
    (∀ e, (beginUpdates lib w).2 = .error e → (beginUpdates lib w).1 = w) ∧
    (Arises lib w → ∀ name, metricValue (beginUpdates lib w).1 name = metricValue w name) := by
  refine ⟨?_, ?_, ?_, ?_⟩
  · intro h
    obtain ⟨o, ho⟩ := Option.isSome_iff_exists.mp h
    simp [beginUpdates, ho]
  · intro h
    simp [commitUpdates, rollbackUpdates, h]
  · intro e he
    unfold beginUpdates at he ⊢
    split
    · rfl
    · rename_i h
      rw [h] at he
      simp only at he
      split
      · rename_i hc
        rw [if_pos hc] at he
        cases he
      · rfl
  · intro hw name
    have hinv := arises_inv hw
    unfold beginUpdates
    split
    · rfl
    · split
      · obtain ⟨⟨ext, c1⟩, -⟩ := copy_spec w.metrics [] w.heap w.heap.length (Nat.le_refl _) hinv.valid (by simp)
        unfold metricValue
        simp only
        cases hf : find name w.metrics with
        | none => rfl
        | some r =>
          simp only [Option.bind_some]
          rw [c1, List.getElem?_append_left (hinv.valid _ (find_mem hf))]
      · rfl

/-- **Updates are visible.** An update through `get` changes the value of the named metric, in a transaction
or not; a metric that is another object keeps its value. -/
theorem C62_update (lib : Lib M S) (w : World M) (name : String) (r : Nat)
    (hr : find name w.metrics = some r) (f : M → M) :
    metricValue (exec lib [.get name, .mutate r f] w) name = (metricValue w name).map f ∧
    ∀ other, find other w.metrics ≠ some r →
      metricValue (exec lib [.get name, .mutate r f] w) other = metricValue w other := by
  have hexec : exec lib [.get name, .mutate r f] w =
      { w with known := r :: w.known, heap := w.heap.modify r f } := by
    simp [exec, apply, hr]
  rw [hexec]
  unfold metricValue
  simp only
  refine ⟨?_, fun other ho => ?_⟩
  · rw [hr]
    simp only [Option.bind_some]
    rw [List.getElem?_modify]
    simp
  · cases hf : find other w.metrics with
    | none => rfl
    | some k =>
      simp only [Option.bind_some]
      have hne : r ≠ k := fun h => ho (by rw [hf, h])
      rw [List.getElem?_modify]
      simp [hne]

section

variable {lib : Lib M S}

private theorem mem_stateDict {w : World M} (h : Inv w) {name : String} {x : Option S} :
    find name (stateDict lib w) = some x ↔ ∃ m, metricValue w name = some m ∧ x = some (lib.save m) := by
  have hnd : ((stateDict lib w).map (·.1)).Nodup := by
    have hsub : ((stateDict lib w).map (·.1)).Sublist (metricNames w) := by
      unfold stateDict metricNames
      generalize w.metrics = l
      induction l with
      | nil => simp
      | cons y l ih =>
        rw [List.filterMap_cons]
        cases w.heap[y.2]? with
        | none => exact List.Sublist.cons _ ih
        | some m => exact List.Sublist.cons_cons _ ih
    exact h.names.sublist hsub
  constructor
  · intro hf
    have := find_mem hf
    unfold stateDict at this
    obtain ⟨y, hy, hx⟩ := List.mem_filterMap.mp this
    obtain ⟨m, hm, he⟩ := Option.map_eq_some_iff.mp hx
    cases he
    refine ⟨m, ?_, rfl⟩
    unfold metricValue
    rw [find_of_mem h.names (show (y.1, y.2) ∈ w.metrics from hy)]
    exact hm
  · rintro ⟨m, hm, rfl⟩
    unfold metricValue at hm
    obtain ⟨r, hr, hm⟩ := Option.bind_eq_some_iff.mp hm
    apply find_of_mem hnd
    unfold stateDict
    rw [List.mem_filterMap]
    exact ⟨(name, r), find_mem hr, by simp [hm]⟩

private theorem load_ok {K : Type} {kind : M → K} (hlib : GoodLib lib kind) (sd : List (String × Option S))
    (target : String → Option M) (l : List (String × Nat)) (heap : List M)
    (hl : ∀ x ∈ l, x.2 < heap.length)
    (hsd : ∀ x ∈ l, ∃ m, target x.1 = some m ∧ find x.1 sd = some (some (lib.save m)))
    (hkind : ∀ x ∈ l, ∀ m m', target x.1 = some m → heap[x.2]? = some m' → kind m' = kind m)
    (hshare : ∀ x ∈ l, ∀ y ∈ l, x.2 = y.2 → target x.1 = target y.1) :
    (loadLoop lib sd l heap).2 = .ok () ∧ ∀ x ∈ l, (loadLoop lib sd l heap).1[x.2]? = target x.1 := by
  induction l generalizing heap with
  | nil => exact ⟨rfl, by simp⟩
  | cons y l ih =>
    obtain ⟨n, r⟩ := y
    have hr : r < heap.length := hl (n, r) (by simp)
    obtain ⟨m, hm, hf⟩ := hsd (n, r) (by simp)
    simp only at hm hf
    have hload : lib.load heap[r] (lib.save m) = (m, true) :=
      hlib _ _ (hkind (n, r) (by simp) m _ hm (List.getElem?_eq_getElem hr))
    have hstep : loadLoop lib sd ((n, r) :: l) heap = loadLoop lib sd l (heap.set r m) := by
      rw [loadLoop, hf, List.getElem?_eq_getElem hr]
      simp [hload]
    rw [hstep]
    have hget : ∀ k, (heap.set r m)[k]? = if r = k then some m else heap[k]? := by
      intro k
      rw [List.getElem?_set]
      by_cases h : r = k
      · subst h
        simp [hr]
      · simp [h]
    obtain ⟨i1, i2⟩ := ih (heap.set r m) (fun x hx => by
        rw [List.length_set]; exact hl x (List.mem_cons_of_mem _ hx))
      (fun x hx => hsd x (List.mem_cons_of_mem _ hx))
      (fun x hx m1 m' h1 h2 => by
        rw [hget] at h2
        split at h2
        · rename_i he
          have := hshare (n, r) (by simp) x (List.mem_cons_of_mem _ hx) he
          simp only at this
          rw [hm, h1] at this
          cases this
          cases h2
          rfl
        · exact hkind x (List.mem_cons_of_mem _ hx) m1 m' h1 h2)
      (fun x hx y hy => hshare x (List.mem_cons_of_mem _ hx) y (List.mem_cons_of_mem _ hy))
    refine ⟨i1, ?_⟩
    intro x hx
    rcases List.mem_cons.mp hx with rfl | hx
    · by_cases hmem : ∃ z ∈ l, z.2 = r
      · obtain ⟨z, hz, hzr⟩ := hmem
        have := i2 z hz
        rw [hzr] at this
        rw [this]
        exact (hshare _ (by simp) z (List.mem_cons_of_mem _ hz) hzr.symm).symm
      · rw [(load_spec sd l (heap.set r m)).2 r fun z hz he => hmem ⟨z, hz, he⟩, hget]
        simp [hm]
    · exact i2 x hx

private theorem load_needs (sd : List (String × Option S)) (l : List (String × Nat)) (heap : List M)
    (h : (loadLoop lib sd l heap).2 = .ok ()) : ∀ x ∈ l, ∃ s, find x.1 sd = some (some s) := by
  induction l generalizing heap with
  | nil => simp
  | cons y l ih =>
    obtain ⟨n, r⟩ := y
    unfold loadLoop at h
    split at h
    · cases h
    · cases h
    · rename_i s hf
      split at h
      · cases h
      · rename_i m hm
        simp only at h
        split at h
        · intro x hx
          rcases List.mem_cons.mp hx with rfl | hx
          · exact ⟨s, hf⟩
          · exact ih _ h x hx
        · cases h

end

/-- **Round trip.** The state of a bag, loaded into a bag with the same names, the same kinds of metrics and
no more sharing of objects, succeeds, and gives every metric the value it had in the first bag. -/
theorem C62_round_trip {K : Type} (lib : Lib M S) (kind : M → K) (hlib : GoodLib lib kind) (w w' : World M)
    (hw : Arises lib w) (hw' : Arises lib w') (hnames : ∀ name, name ∈ metricNames w ↔ name ∈ metricNames w')
    (hkinds : ∀ name m m', metricValue w name = some m → metricValue w' name = some m' → kind m' = kind m)
    (hshare : ∀ a b r, find a w'.metrics = some r → find b w'.metrics = some r →
      metricValue w a = metricValue w b) :
    (loadStateDict lib (stateDict lib w) w').2 = .ok () ∧
    metricNames (loadStateDict lib (stateDict lib w) w').1 = metricNames w' ∧
    ∀ name, metricValue (loadStateDict lib (stateDict lib w) w').1 name = metricValue w name := by
  have h := arises_inv hw
  have h' := arises_inv hw'
  have hval : ∀ (u : World M), Inv u → ∀ x ∈ u.metrics, metricValue u x.1 = u.heap[x.2]? := by
    intro u hu x hx
    unfold metricValue
    rw [find_of_mem hu.names (show (x.1, x.2) ∈ u.metrics from hx)]
    rfl
  have hex : ∀ name ∈ metricNames w, ∃ m, metricValue w name = some m := by
    intro name hn
    obtain ⟨x, hx, rfl⟩ := List.mem_map.mp hn
    exact ⟨_, (hval w h x hx).trans (List.getElem?_eq_getElem (h.valid x hx))⟩
  obtain ⟨l1, l2⟩ := load_ok hlib (stateDict lib w) (metricValue w) w'.metrics w'.heap h'.valid
    (by
      intro x hx
      obtain ⟨m, hm⟩ := hex x.1 ((hnames x.1).mpr (List.mem_map_of_mem hx))
      exact ⟨m, hm, (mem_stateDict h).mpr ⟨m, hm, rfl⟩⟩)
    (by
      intro x hx m m' hm hm'
      exact hkinds x.1 m m' hm ((hval w' h' x hx).trans hm'))
    (by
      intro x hx y hy he
      exact hshare x.1 y.1 x.2 (find_of_mem h'.names (show (x.1, x.2) ∈ w'.metrics from hx))
        (by rw [he]; exact find_of_mem h'.names (show (y.1, y.2) ∈ w'.metrics from hy)))
  have hkeys : ((stateDict lib w).all fun x => (w'.metrics.map (·.1)).contains x.1) = true := by
    rw [List.all_eq_true]
    intro x hx
    unfold stateDict at hx
    obtain ⟨y, hy, hx⟩ := List.mem_filterMap.mp hx
    obtain ⟨m, hm, rfl⟩ := Option.map_eq_some_iff.mp hx
    rw [List.contains_iff_mem]
    exact (hnames y.1).mp (List.mem_map_of_mem hy)
  have hres : loadStateDict lib (stateDict lib w) w' =
      ({ w' with heap := (loadLoop lib (stateDict lib w) w'.metrics w'.heap).1 }, .ok ()) := by
    unfold loadStateDict
    simp only [l1]
    rw [if_pos hkeys]
  rw [hres]
  refine ⟨rfl, rfl, fun name => ?_⟩
  unfold metricValue
  simp only
  cases hf : find name w'.metrics with
  | none =>
    have : name ∉ metricNames w := by
      rw [hnames]
      exact find_none.mp hf
    rw [find_none.mpr this]
    rfl
  | some r =>
    simp only [Option.bind_some]
    rw [l2 _ (find_mem hf)]
    rfl

/-- **Only complete states load.** If `load_state_dict` succeeds, the state has exactly the names of the bag,
each with the state of a metric. -/
theorem C62_load_keys (lib : Lib M S) (w : World M) (sd : List (String × Option S))
    (h : (loadStateDict lib sd w).2 = .ok ()) :
    (∀ name ∈ metricNames w, ∃ s, find name sd = some (some s)) ∧ ∀ x ∈ sd, x.1 ∈ metricNames w := by
  unfold loadStateDict at h
  simp only at h
  split at h
  · cases h
  · rename_i hl
    split at h
    · rename_i hall
      refine ⟨?_, ?_⟩
      · intro name hn
        obtain ⟨x, hx, rfl⟩ := List.mem_map.mp hn
        exact load_needs sd w.metrics w.heap hl x hx
      · intro x hx
        have := List.all_eq_true.mp hall x hx
        exact List.contains_iff_mem.mp this
    · cases h

/-- **Reset.** Every metric of the bag is reset (idempotent resets, as metrics may be shared); the names
stay. -/
theorem C62_reset (lib : Lib M S) (hidem : ∀ m, lib.reset (lib.reset m) = lib.reset m) (w : World M) :
    metricNames (resetMetrics lib w) = metricNames w ∧
    ∀ name, metricValue (resetMetrics lib w) name = (metricValue w name).map lib.reset := by
  refine ⟨rfl, fun name => ?_⟩
  unfold metricValue resetMetrics
  simp only
  cases hf : find name w.metrics with
  | none => rfl
  | some r =>
    simp only [Option.bind_some]
    have hm : ∃ x ∈ w.metrics, x.2 = r := ⟨_, find_mem hf, rfl⟩
    have key : ∀ (l : List (String × Nat)) (heap : List M), ((∃ x ∈ l, x.2 = r) ∨ ∃ m, heap[r]? = some (lib.reset m)) →
        (l.foldl (fun heap x => heap.modify x.2 lib.reset) heap)[r]? = (heap[r]?).map lib.reset := by
      intro l
      induction l with
      | nil =>
        intro heap h
        rcases h with ⟨x, hx, -⟩ | ⟨m, hm⟩
        · cases hx
        · rw [List.foldl_nil, hm, Option.map_some, hidem]
      | cons y l ih =>
        intro heap h
        rw [List.foldl_cons]
        have hget : (heap.modify y.2 lib.reset)[r]? = if y.2 = r then (heap[r]?).map lib.reset else heap[r]? := by
          rw [List.getElem?_modify]
          by_cases h : y.2 = r <;> simp [h]
        by_cases hy : y.2 = r
        · rw [if_pos hy] at hget
          cases hr : heap[r]? with
          | none =>
            rw [hr] at hget
            have hlen : heap.length ≤ r := List.getElem?_eq_none_iff.mp hr
            have := (reset_spec l (heap.modify y.2 lib.reset) lib.reset).1
            rw [List.length_modify] at this
            rw [List.getElem?_eq_none (by omega)]
            rfl
          | some m =>
            rw [hr] at hget
            rw [ih _ (Or.inr ⟨m, hget⟩), hget]
            simp [hidem]
        · rw [if_neg hy] at hget
          rw [ih _ (by
            rw [hget]
            rcases h with ⟨x, hx, hxr⟩ | h
            · rcases List.mem_cons.mp hx with rfl | hx
              · exact absurd hxr hy
              · exact Or.inl ⟨x, hx, hxr⟩
            · exact Or.inr h), hget]
    exact key w.metrics w.heap (Or.inl hm)

/-- Counters that can be reset and saved. -/
private def counters : Lib Nat Nat := ⟨fun _ => 0, id, fun _ s => (s, true), fun _ => true⟩

/-- Non-vacuity: two counters, a transaction with updates, an addition and a failed load, rolled back. -/
example :
    let w := exec counters [.create 1, .add "loss" 0, .create 5, .add "size" 1] World.init
    let ops : List (Op Nat Nat) := [.get "loss", .mutate 0 (· + 1), .create 9, .add "new" 4, .resetMetrics,
      .loadStateDict [("loss", some 7)]]
    let w' := (rollbackUpdates (exec counters ops (beginUpdates counters w).1)).1
    (beginUpdates counters w).2.isOk = true ∧ (metricValue w' "loss", metricValue w' "size", metricValue w' "new") =
      (some 1, some 5, none) := by decide

/-- Non-vacuity of the round trip: the counters exchange their states. -/
example : GoodLib counters (fun _ => ()) := fun _ _ _ => rfl

/-- **Metrics held by a client.** A rollback replaces the metrics by copies: a metric that the client holds
(here the one at reference 0) keeps its updated value, and its later updates do not reach the bag. -/
theorem C62_held_metric :
    let w := exec counters [.create 1, .add "loss" 0, .beginUpdates, .mutate 0 (· + 1), .rollbackUpdates]
      World.init
    let w' := exec counters [.mutate 0 (· + 10)] w
    w.heap[0]? = some 2 ∧ metricValue w "loss" = some 1 ∧ w'.heap[0]? = some 12 ∧
      metricValue w' "loss" = some 1 := by decide

end Fs2.Props
