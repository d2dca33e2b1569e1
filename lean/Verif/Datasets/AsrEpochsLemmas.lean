import Verif.Datasets.AsrReaderLemmas
import Verif.Pipeline.Cycles

/-!
# Later epochs of the data reader of speech recognition (helper lemmas)
-/

namespace Fs2

theorem map_cyclic {f : Data → Except Err Data} {g : Data → Data} {C : Nat → S.σ → Prop} {Q : Nat → List Data → Prop} (h : S.Cyclic C Q)
    (hf : ∀ k ys, Q k ys → ∀ y ∈ ys, f y = .ok (g y)) : (map f S).Cyclic C (fun k zs => ∃ ys, Q k ys ∧ zs = ys.map g) := by
  intro k s hs
  obtain ⟨ys, h1, h2, h3⟩ := h k s hs
  refine ⟨_, ⟨ys, h1, rfl⟩, map_yields_on (hf k ys h1) h2, fun t ht => ?_⟩
  obtain ⟨c, h4, h5⟩ := map_steps ht
  obtain rfl := h5 rfl
  exact h3 t h4

/-- What a source yields depends on its calls only. -/
theorem yields_transfer {T₁ T₂ : Source} (π : T₁.σ → T₂.σ) (h : ∀ {s r s'}, T₁.next s = some (r, s') → T₂.next (π s) = some (r, π s'))
    {s : T₁.σ} {xs : List Data} (hy : T₁.Yields s xs) : T₂.Yields (π s) xs := by
  have emits : ∀ {s t : T₁.σ} {xs : List Data}, T₁.Emits s xs t → T₂.Emits (π s) xs (π t) := by
    intro s t xs he
    induction he with
    | nil => exact .nil _
    | cons hn _ ih => exact .cons (h hn) ih
  obtain ⟨t, h1, h2⟩ := hy
  refine ⟨π t, emits h1, .coind (fun u => ∃ v, T₁.Ended v ∧ u = π v) ⟨t, h2, rfl⟩ ?_⟩
  rintro u ⟨v, hv, rfl⟩
  obtain ⟨v', h3, h4⟩ := hv.next
  exact ⟨π v', h h3, v', h4, rfl⟩

end Fs2

namespace Fs2.AsrData
open Fs2.Native Fs2.Batch Source

variable (R : Rng)

/-- The states before filtering: no pipeline is broken. -/
def Whole {W : Files} (st : (Pipe.denote R (zipped W)).σ) : Prop :=
  ∀ i : Fin 2, PipeInv (S := Pipe.denote R (if i = 0 then tsvPipe W else wrdPipe W)) false 0 (fun _ => True)
    ((show States fun i => pipeline false 0 (Pipe.denote R (if i = 0 then tsvPipe W else wrdPipe W)) from st) i)

theorem always (S : Source) : Invar S fun _ => True := ⟨fun _ _ _ => trivial, fun _ _ => trivial⟩

theorem whole_inv (W : Files) (lo hi : Nat) :
    Invar (Pipe.denote R (.filter (rightLength lo hi) (.map flattenExample (zipped W)))) (Whole R (W := W)) :=
  filter_inv (map_inv (zip_inv fun i => pipeline_inv (always (Pipe.denote R (if i = 0 then tsvPipe W else wrdPipe W))) trivial))

theorem whole_reset (W : Files) (lo hi : Nat) {t : (Pipe.denote R (zipped W)).σ} (ht : Whole R t) :
    (Pipe.denote R (.filter (rightLength lo hi) (.map flattenExample (zipped W)))).reset false t =
      (Pipe.denote R (.filter (rightLength lo hi) (.map flattenExample (zipped W)))).init := by
  have one : ∀ (i : Fin 2) (s : PipeSt (Pipe.denote R (if i = 0 then tsvPipe W else wrdPipe W)).σ),
      PipeInv (S := Pipe.denote R (if i = 0 then tsvPipe W else wrdPipe W)) false 0 (fun _ => True) s →
      (pipeline false 0 (Pipe.denote R (if i = 0 then tsvPipe W else wrdPipe W))).reset false s =
        (pipeline false 0 (Pipe.denote R (if i = 0 then tsvPipe W else wrdPipe W))).init := by
    rintro i ⟨src, w, b⟩ ⟨h1, h2, h3⟩
    simp only at h1 h2 h3
    subst h1
    obtain rfl : w = 0 := by omega
    cases src with
    | none => exact absurd h3 (by simp)
    | some j =>
      match i, j with
      | 0, j => rfl
      | 1, j => rfl
  funext i
  exact one i _ (ht i)

theorem shuffled_cyclic {p : Pipe} {C : Nat → (p.denote R).σ → Prop} {Q : Nat → List Data → Prop} (window seed : Nat)
    (h : (p.denote R).Cyclic C Q) (h0 : C 0 (p.denote R).init) :
    ∃ C', C' 0 (Pipe.denote R (if window ≠ 1 then .shuffle window seed p else p)).init ∧
      (Pipe.denote R (if window ≠ 1 then .shuffle window seed p else p)).Cyclic C' fun k zs => ∃ ys, Q k ys ∧ zs.Perm ys := by
  by_cases hw : window ≠ 1
  · rw [if_pos hw]
    exact ⟨_, ⟨rfl, rfl, h0⟩, shuffle_cyclic (R := R) (w := window) (seed := seed) h⟩
  · rw [if_neg hw]
    exact ⟨C, h0, h.mono fun k ys hq => ⟨ys, hq, .refl _⟩⟩

/-- The order of the examples in each epoch, which is the same for all ranks. -/
theorem orders {W : Files} {clips : List Clip} (h : Reads W clips) (lo hi : Nat) (window seed : Nat) :
    ∃ (order : Nat → List Clip) (C : _), (∀ k, (order k).Perm (clips.filter fun c => decide (lo ≤ c.size ∧ c.size ≤ hi))) ∧
      C 0 (Pipe.denote R (if window ≠ 1 then .shuffle window seed (.filter (rightLength lo hi) (.map flattenExample (zipped W)))
        else .filter (rightLength lo hi) (.map flattenExample (zipped W)))).init ∧
      (Pipe.denote R (if window ≠ 1 then .shuffle window seed (.filter (rightLength lo hi) (.map flattenExample (zipped W)))
        else .filter (rightLength lo hi) (.map flattenExample (zipped W)))).Cyclic C fun k ys => ys = (order k).map raw := by
  have hb := cyclic_of_inv (whole_inv R W lo hi) (xs := (clips.filter fun c => decide (lo ≤ c.size ∧ c.size ≤ hi)).map raw) (by
    intro t ht
    rw [whole_reset R W lo hi ht]
    exact filtered_yields R h lo hi)
  have h0 : Whole R (Pipe.denote R (zipped W)).init := fun i => ⟨rfl, Nat.le_refl 0, trivial⟩
  by_cases hw : window ≠ 1
  · rw [if_pos hw]
    have hne : shuffleWindow window ≠ 1 := by
      unfold shuffleWindow
      split
      · decide
      · exact hw
    obtain ⟨u, L, h1, h2, h3⟩ := (shuffle_cyclic (R := R) (w := window) (seed := seed) hb).pin (shuffle_stay hne)
      (s₀ := (shuffle R window seed _).init) ⟨rfl, rfl, h0, filtered_yields R h lo hi⟩
    have h4 : ∀ k, ∃ order : List Clip, order.Perm (clips.filter fun c => decide (lo ≤ c.size ∧ c.size ≤ hi)) ∧ L k = order.map raw := by
      intro k
      obtain ⟨ys, rfl, hp⟩ := h2 k
      obtain ⟨bs, h5, h6⟩ := perm_map_exists hp.symm _ rfl
      exact ⟨bs, h5.symm, h6⟩
    obtain ⟨order, ho⟩ := Classical.axiomOfChoice h4
    refine ⟨order, fun k s => s = u k, fun k => (ho k).1, h1.symm, h3.mono fun k ys e => ?_⟩
    rw [e, (ho k).2]
  · rw [if_neg hw]
    exact ⟨fun _ => clips.filter fun c => decide (lo ≤ c.size ∧ c.size ≤ hi), _, fun _ => .refl _, ⟨h0, filtered_yields R h lo hi⟩, hb⟩

/-- What all ranks have before batching, in every epoch. -/
theorem examples_cyclic {W : Files} {clips : List Clip} (h : Reads W clips) (size lo hi : Nat) (o : Options) (hsize : 0 < size) :
    ∃ L : Nat → Nat → List Clip,
      (∀ k, ((List.range size).flatMap (L k)).Perm (clips.filter fun c => decide (lo ≤ c.size ∧ c.size ≤ hi))) ∧
      ∀ rank, rank < size → ∃ C, C 0 (Pipe.denote R (examplePipe W rank size lo hi o)).init ∧
        (Pipe.denote R (examplePipe W rank size lo hi o)).Cyclic C fun k ys => ys = (L k rank).map raw := by
  obtain ⟨order, C, ho, h0, hc⟩ := orders R h lo hi o.exampleShuffleWindow o.seed
  by_cases hs : size > 1
  · obtain ⟨M, hM⟩ := Classical.axiomOfChoice fun k => split_shards h size hsize (ho k)
    refine ⟨M, fun k => (hM k).1, fun rank hr => ?_⟩
    have e : examplePipe W rank size lo hi o = .shard rank size true (if o.exampleShuffleWindow ≠ 1 then
        .shuffle o.exampleShuffleWindow o.seed (.filter (rightLength lo hi) (.map flattenExample (zipped W)))
      else .filter (rightLength lo hi) (.map flattenExample (zipped W))) := if_pos hs
    rw [e]
    exact ⟨C, h0, (shard_cyclic hr hc).mono fun k ys e => by rw [e, (hM k).2]⟩
  · obtain rfl : size = 1 := by omega
    refine ⟨fun k _ => order k, fun k => ?_, fun rank _ => ⟨C, h0, hc⟩⟩
    simpa [List.range_succ] using ho k

/-- Shuffling batches, loading and collating. -/
theorem collated_cyclic {W : Files} {p : Pipe} (tok : Tok) (window seed : Nat) (pad : Int) {C : Nat → (p.denote R).σ → Prop}
    {P : Nat → List (List Clip) → Prop} (hne : ∀ k cs, P k cs → ∀ b ∈ cs, b ≠ [])
    (ha : ∀ k cs, P k cs → ∀ b ∈ cs, ∀ c ∈ b, W.audio c.path = .ok c.audio)
    (h : (p.denote R).Cyclic C fun k ys => ∃ cs, P k cs ∧ ys = cs.map fun b => .list (b.map raw)) (h0 : C 0 (p.denote R).init) :
    ∃ C', C' 0 (Pipe.denote R (.map (collater pad).call (.map (loadBatch W tok) (if window ≠ 1 then .shuffle window seed p else p)))).init ∧
      (Pipe.denote R (.map (collater pad).call (.map (loadBatch W tok) (if window ≠ 1 then .shuffle window seed p else p)))).Cyclic C'
        fun k zs => ∃ cs buckets : List (List Clip), P k cs ∧ buckets.Perm cs ∧ zs = buckets.map (collated tok pad) := by
  obtain ⟨C', h1, h2⟩ := shuffled_cyclic R window seed h h0
  have h3 := h2.mono (Q' := fun k zs => ∃ cs buckets : List (List Clip), P k cs ∧ buckets.Perm cs ∧ zs = buckets.map fun b => .list (b.map raw)) (by
    rintro k zs ⟨ys, ⟨cs, hp, rfl⟩, hperm⟩
    obtain ⟨bs, h5, h6⟩ := perm_map_exists hperm.symm _ rfl
    exact ⟨cs, bs, hp, h5.symm, h6⟩)
  let g : Data → Data := fun x => match loadBatch W tok x with
    | .ok d => d
    | .error _ => x
  have hl : ∀ b : List Clip, (∀ c ∈ b, W.audio c.path = .ok c.audio) → loadBatch W tok (.list (b.map raw)) = .ok (.list (b.map (loaded tok))) := by
    intro b hb
    rw [loadBatch, load_all tok hb]
  have h4 := map_cyclic (f := loadBatch W tok) (g := g) h3 (by
    rintro k zs ⟨cs, bs, hp, hperm, rfl⟩ x hx
    obtain ⟨b, hb, rfl⟩ := List.mem_map.1 hx
    simp only [g, hl b (ha k cs hp b (hperm.mem_iff.1 hb))])
  let j : Data → Data := fun x => match (collater pad).call x with
    | .ok d => d
    | .error _ => x
  have hg : ∀ {k} {cs bs : List (List Clip)}, P k cs → bs.Perm cs → (bs.map fun b => Data.list (b.map raw)).map g = bs.map fun b => .list (b.map (loaded tok)) := by
    intro k cs bs hp hperm
    rw [List.map_map]
    exact List.map_congr_left fun b hb => by simp only [Function.comp, g, hl b (ha k cs hp b (hperm.mem_iff.1 hb))]
  have hcol : ∀ {k} {cs bs : List (List Clip)}, P k cs → bs.Perm cs → ∀ b ∈ bs, (collater pad).call (.list (b.map (loaded tok))) = .ok (collated tok pad b) := by
    intro k cs bs hp hperm b hb
    exact collate_ok tok pad (hne k cs hp b (hperm.mem_iff.1 hb))
  have h5 := map_cyclic (f := (collater pad).call) (g := j) h4 (by
    rintro k zs ⟨_, ⟨cs, bs, hp, hperm, rfl⟩, rfl⟩ x hx
    rw [hg hp hperm] at hx
    obtain ⟨b, hb, rfl⟩ := List.mem_map.1 hx
    simp only [j, hcol hp hperm b hb])
  refine ⟨C', h1, h5.mono ?_⟩
  rintro k zs ⟨_, ⟨_, ⟨cs, bs, hp, hperm, rfl⟩, rfl⟩, rfl⟩
  refine ⟨cs, bs, hp, hperm, ?_⟩
  rw [hg hp hperm, List.map_map]
  exact List.map_congr_left fun b hb => by simp only [Function.comp, j, hcol hp hperm b hb]

end Fs2.AsrData
