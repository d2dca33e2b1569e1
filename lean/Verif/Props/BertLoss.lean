import Verif.Nn.BertLoss

/-!
# Properties of w2v-BERT's masked prediction loss

C119. The masked prediction loss is, for every masked position and target codebook, the negative log-likelihood of the
entry that the quantizer chose, under the softmax over the entries of the codebook.
-/

namespace Fs2.Props

open Fs2.Bert Fs2.Loss

/-- The logit of entry `v` of target codebook `g`: the layout of the view `(V, G)`. -/
noncomputable def entryLogit (G : Nat) (row : List ℝ) (v g : Nat) : ℝ := row.getD (v * G + g) 0

/-- What the loss should be: `choice p g` is the entry that the quantizer chose. -/
noncomputable def wantedBertLoss (V G : Nat) (proj : List (List ℝ)) (choice : Nat → Nat → Nat) : ℝ :=
  (proj.zipIdx.map fun (row, p) => ((List.range G).map fun g =>
    Real.log (((List.range V).map fun v => Real.exp (entryLogit G row v g)).sum) -
      entryLogit G row (choice p g) g).sum).sum

/-- A batch as the quantizer and the projection give it: the same number of positions, `V * G` logits for each, and
`numCodebooks` rows of `V` numbers. -/
structure BertBatch (V G numCodebooks : Nat) (proj : List (List ℝ)) (cb : List (List (List ℝ))) : Prop where
  positions : cb.length = proj.length
  logits : ∀ row ∈ proj, row.length = V * G
  codebooks : ∀ rows ∈ cb, rows.length = numCodebooks
  entries : ∀ rows ∈ cb, ∀ r ∈ rows, r.length = V

private theorem flatten_length {α : Type} (n : Nat) : ∀ (l : List (List α)), (∀ r ∈ l, r.length = n) →
    l.flatten.length = l.length * n := by
  intro l
  induction l with
  | nil => intro _; simp
  | cons a l ih =>
    intro h
    rw [List.flatten_cons, List.length_append, ih (fun r hr => h r (List.mem_cons_of_mem _ hr)),
      h a (List.mem_cons_self ..), List.length_cons]
    ring

private theorem rows_length (V G : Nat) (proj : List (List ℝ)) :
    (proj.map (viewRow V G)).flatten.length = proj.length * V := by
  rw [flatten_length V, List.length_map]
  intro r hr
  obtain ⟨row, _, rfl⟩ := List.mem_map.1 hr
  simp [viewRow]

private theorem targets_length (numCodebooks : Nat) (cb : List (List (List ℝ)))
    (h : ∀ rows ∈ cb, rows.length = numCodebooks) :
    ((targetIndices numCodebooks cb).flatten.map Int.ofNat).length = cb.length * numCodebooks := by
  rw [List.length_map, flatten_length numCodebooks]
  · simp [targetIndices]
  · intro r hr
    obtain ⟨rows, hrows, rfl⟩ := List.mem_map.1 hr
    simp [h rows hrows]

/-- **C119, violated.** `cross_entropy` takes logits of three dimensions as `(N, S, T)`, but here they are `(N×S, V, G)`.
So without label smoothing, for every batch with a masked position, the loss is an error unless there are as many codebooks
as entries in a codebook. -/
theorem C119_no_loss (V G numCodebooks : Nat) (proj : List (List ℝ)) (cb : List (List (List ℝ)))
    (hb : BertBatch V G numCodebooks proj cb) (hne : proj ≠ []) (hV : V ≠ numCodebooks) :
    bertLoss V G numCodebooks proj cb 0 = .error .shape := by
  unfold bertLoss entropy3
  have hl : (proj.map (viewRow V G)).flatten.length ≠
      ((targetIndices numCodebooks cb).flatten.map Int.ofNat).length := by
    rw [rows_length, targets_length numCodebooks cb hb.codebooks, hb.positions]
    intro h
    exact hV (Nat.eq_of_mul_eq_mul_left (List.length_pos_of_ne_nil hne) h)
  simp only
  rw [if_pos ⟨trivial, hl⟩]

/-- **C119, violated.** With label smoothing and one target codebook, as is the default, the loss is an error as well: the
softmax is over a single entry, and either a target is not 0 or the smoothing divides by 0. -/
theorem C119_no_smoothed_loss (V numCodebooks : Nat) (proj : List (List ℝ)) (cb : List (List (List ℝ))) (smoothing : ℝ)
    (hs : 0 < smoothing) :
    ∃ e, bertLoss V 1 numCodebooks proj cb smoothing = .error e := by
  unfold bertLoss entropy3
  simp only
  have h0 : smoothing ≠ 0 := hs.ne'
  rw [if_neg (fun h => h0 h.1)]
  split
  · exact ⟨_, rfl⟩
  · unfold crossEntropy
    rw [if_neg h0]
    unfold smoothed
    split
    · rename_i out hout
      split at hout
      · cases hout
      · simp only at hout
        rw [if_pos ⟨hs, trivial⟩] at hout
        cases hout
    · exact ⟨_, rfl⟩

/-- **C119.** The defaults, 1024 entries in each of one codebook: whatever the logits and the quantizer's choices are, with
at least one masked position and any label smoothing from 0 on there is no loss. -/
theorem C119_default_negation (proj : List (List ℝ)) (cb : List (List (List ℝ))) (smoothing : ℝ)
    (hb : BertBatch 1024 1 1 proj cb) (hne : proj ≠ []) (hs : 0 ≤ smoothing) :
    ∃ e, bertLoss 1024 1 1 proj cb smoothing = .error e := by
  rcases hs.lt_or_eq with h | h
  · exact C119_no_smoothed_loss 1024 1 proj cb smoothing h
  · rw [← h]
    exact ⟨_, C119_no_loss 1024 1 1 proj cb hb hne (by decide)⟩

/-- There is such a batch, of any number of positions. -/
example (n : Nat) : BertBatch 1024 1 1 (List.replicate n (List.replicate 1024 0))
    (List.replicate n [List.replicate 1024 0]) where
  positions := by rw [List.length_replicate, List.length_replicate]
  logits := by intro r hr; rw [(List.mem_replicate.1 hr).2, List.length_replicate]
  codebooks := by intro r hr; rw [(List.mem_replicate.1 hr).2]; rfl
  entries := by
    intro r hr x hx
    rw [(List.mem_replicate.1 hr).2, List.mem_singleton] at hx
    rw [hx, List.length_replicate]

/-- The smallest entry among those that none exceeds. -/
def FirstLargest (r : List ℝ) (i : Nat) : Prop :=
  ∃ h : i < r.length, (∀ j (hj : j < r.length), r[j] ≤ r[i]) ∧ ∀ j (hj : j < i), r[j] < r[i]

private theorem argmaxFrom_first : ∀ (rest done : List ℝ) (best : Nat) (x : ℝ) (hb : best < done.length),
    done[best] = x → (∀ j (hj : j < done.length), done[j] ≤ x) → (∀ j (hj : j < best), done[j] < x) →
    FirstLargest (done ++ rest) (argmaxFrom done.length best x rest) := by
  intro rest
  induction rest with
  | nil =>
    intro done best x hb hx hle hlt
    rw [List.append_nil]
    refine ⟨hb, ?_, ?_⟩
    · intro j hj
      simp only [argmaxFrom]
      rw [hx]; exact hle j hj
    · intro j hj
      simp only [argmaxFrom]
      rw [hx]; exact hlt j hj
  | cons y rest ih =>
    intro done best x hb hx hle hlt
    have e : done ++ y :: rest = (done ++ [y]) ++ rest := by simp
    have hl : (done ++ [y]).length = done.length + 1 := by simp
    unfold argmaxFrom
    by_cases hxy : x < y
    · rw [if_pos hxy, e, ← hl]
      refine ih (done ++ [y]) done.length y (by omega) (by simp) ?_ ?_
      · intro j hj
        by_cases h : j < done.length
        · rw [List.getElem_append_left h]
          exact (hle j h).trans hxy.le
        · have : j = done.length := by omega
          subst this
          simp
      · intro j hj
        rw [List.getElem_append_left hj]
        exact (hle j hj).trans_lt hxy
    · rw [if_neg hxy, e, ← hl]
      refine ih (done ++ [y]) best x (by omega) ?_ ?_ ?_
      · rw [List.getElem_append_left hb]; exact hx
      · intro j hj
        by_cases h : j < done.length
        · rw [List.getElem_append_left h]
          exact hle j h
        · have : j = done.length := by omega
          subst this
          simp
          exact not_lt.1 hxy
      · intro j hj
        rw [List.getElem_append_left (by omega)]
        exact hlt j hj

/-- **C119.** The targets of a position are, for every codebook in order, the entry that the quantizer chose: the first
largest of its row. There is one for every codebook, though, and not one for every target codebook. -/
theorem C119_targets_partial (V G numCodebooks : Nat) (proj : List (List ℝ)) (cb : List (List (List ℝ)))
    (hb : BertBatch V G numCodebooks proj cb) (hV : 0 < V) (p : Nat) (hp : p < cb.length) :
    ∃ t, (targetIndices numCodebooks cb)[p]? = some t ∧ t.length = numCodebooks ∧
      ∀ g (hg : g < cb[p].length), ∃ i, t[g]? = some i ∧ FirstLargest cb[p][g] i := by
  have hc := hb.codebooks cb[p] (List.getElem_mem hp)
  refine ⟨cb[p].map argmax, ?_, by simp [hc], ?_⟩
  · unfold targetIndices
    rw [List.getElem?_map, List.getElem?_eq_getElem hp, Option.map_some,
      List.take_of_length_le (by rw [List.length_map, hc])]
  · intro g hg
    refine ⟨argmax cb[p][g], by rw [List.getElem?_map, List.getElem?_eq_getElem hg]; rfl, ?_⟩
    have he := hb.entries cb[p] (List.getElem_mem hp) cb[p][g] (List.getElem_mem hg)
    generalize cb[p][g] = r at he
    cases r with
    | nil => simp at he; omega
    | cons x rest =>
      refine argmaxFrom_first rest [x] 0 x (by simp) rfl ?_ ?_
      · intro j hj
        have : j = 0 := by simpa using hj
        subst this
        simp
      · intro j hj; omega

/-- **C119, violated.** With two codebooks of which one is a target, which the configuration allows, there are two targets
for the position and not one. -/
theorem C119_target_codebooks_negation :
    BertBatch 3 1 2 [[0, 0, 0]] [[[0, 1, 0], [0, 0, 1]]] ∧
    targetIndices 2 [[[0, 1, 0], [0, 0, 1]]] = [[1, 2]] := by
  refine ⟨⟨rfl, by simp, by simp, by simp⟩, ?_⟩
  simp [targetIndices, argmax, argmaxFrom]

/-- **C119, violated.** A loss can be had with as many codebooks as entries, but it is another one: two codebooks with two
entries, where the logits are `[[0, 0], [1, 0]]` for entry and codebook and both choices are entry 0. -/
theorem C119_other_loss_negation :
    bertLoss 2 2 2 [[0, 0, 1, 0]] [[[1, 0], [1, 0]]] 0 =
      .ok (.scalar (some (wantedBertLoss 2 2 [[0, 0, 1, 0]] (fun _ _ => 0) - 1))) := by
  have hw : wantedBertLoss 2 2 [[0, 0, 1, 0]] (fun _ _ => 0) = Real.log (1 + Real.exp 1) + Real.log (1 + 1) := by
    simp [wantedBertLoss, entryLogit, List.range_succ]
  rw [hw]
  have ht : targetIndices 2 [[[1, 0], [1, 0]]] = [[0, 0]] := by
    have h : ¬ (1 : ℝ) < 0 := by norm_num
    simp [targetIndices, argmax, argmaxFrom, h]
  unfold bertLoss
  rw [ht]
  simp [entropy3, viewRow, List.range_succ, crossEntropy, plain, nll, pick, logSoftmax, Except.map, bind, Except.bind,
    pure, Except.pure]
  rw [add_comm (Real.exp 1) 1]
  ring

end Fs2.Props
