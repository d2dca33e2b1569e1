import Verif.Nn.RelativeAttentionLemmas

/-!
# C89: Attention with relative positions

What a query gets from a key besides their contents depends on the distance between them: it does not
depend on where they are, on how long the sequence is, or on padding.
-/

namespace Fs2.Props

open Fs2.Nn

private theorem headScale_eq (n : Nat) : headScale n = 1 / √(n : ℝ) := by
  unfold headScale
  rw [Real.rpow_neg (Nat.cast_nonneg n), ← Real.sqrt_eq_rpow, one_div]

/-- The sinusoid of a distance (Vaswani et al., with negative distances): sine in even components and
cosine in odd ones, with wavelengths that grow with the component. -/
noncomputable def sinusoid (dim : Nat) (distance : Int) (c : Nat) : ℝ :=
  if c % 2 = 0 then Real.sin (distance / (10000 : ℝ) ^ ((c : ℝ) / dim))
  else Real.cos (distance / (10000 : ℝ) ^ ((c - 1 : ℝ) / dim))

private theorem angle_eq (dim : Nat) (x : ℝ) (c : Nat) :
    angle dim x c = x / (10000 : ℝ) ^ (((2 * (c / 2) : Nat) : ℝ) / dim) := by
  unfold angle
  rw [div_eq_mul_inv x, ← Real.rpow_neg (by norm_num), Real.rpow_def_of_pos (by norm_num)]
  congr 2
  ring

/-- **The encodings.** Row `m` of the encodings for a sequence of length `n` is the sinusoid of the
distance `n - 1 - m`, from `n - 1` down to `-(n - 1)`, whatever `max_seq_len` is. Longer sequences than
that are refused. -/
theorem C89_encoding (dim maxLen n : Nat) :
    (n ≤ maxLen → ∃ enc, relEncoding dim maxLen n = some enc ∧
      ∀ m c : Nat, m < 2 * n - 1 → enc m c = sinusoid dim ((n : Int) - 1 - m) c) ∧
    (maxLen < n → relEncoding dim maxLen n = none) := by
  refine ⟨?_, ?_⟩
  · intro h
    refine ⟨_, by unfold relEncoding; rw [if_neg (by omega)], ?_⟩
    intro m c hm
    have harg : (if maxLen - n + m < maxLen then angle dim ((maxLen - 1 - (maxLen - n + m) : Nat) : ℝ) c
        else -1 * angle dim ((maxLen - n + m - maxLen + 1 : Nat) : ℝ) c) =
        (((n : Int) - 1 - m : Int) : ℝ) / (10000 : ℝ) ^ (((2 * (c / 2) : Nat) : ℝ) / dim) := by
      split
      · rename_i hlt
        rw [angle_eq]
        congr 1
        rw [show maxLen - 1 - (maxLen - n + m) = n - 1 - m by omega]
        rw [show ((n : Int) - 1 - m) = ((n - 1 - m : Nat) : Int) by omega]
        simp
      · rename_i hge
        rw [angle_eq, ← mul_div_assoc]
        congr 1
        rw [show ((n : Int) - 1 - m) = -((maxLen - n + m - maxLen + 1 : Nat) : Int) by omega]
        rw [Int.cast_neg, neg_one_mul, Int.cast_natCast]
    unfold relTable
    simp only
    rw [harg]
    unfold sinusoid
    rcases Nat.mod_two_eq_zero_or_one c with hc | hc
    · rw [if_pos hc, if_pos hc, show 2 * (c / 2) = c by omega]
    · rw [if_neg (by omega), if_neg (by omega)]
      congr 3
      have : ((2 * (c / 2) : Nat) : ℝ) = (c : ℝ) - 1 := by
        rw [show 2 * (c / 2) = c - 1 by omega, Nat.cast_sub (by omega), Nat.cast_one]
      rw [this]
  · intro h
    unfold relEncoding
    rw [if_pos h]

example : ∃ enc, relEncoding 4 10 3 = some enc ∧
    ∀ m c : Nat, m < 2 * 3 - 1 → enc m c = sinusoid 4 (((3 : Nat) : Int) - 1 - m) c :=
  (C89_encoding 4 10 3).1 (by decide)

/-- **The shift.** In the shifted matrix entry `j` of row `i` is entry `n - 1 - i + j` of row `i`: since
row `m` of the encodings is for the distance `n - 1 - m`, it is the one for the distance `i - j`. -/
theorem C89_shift {α : Type} (zero : α) (n : Nat) (bd : List (List α)) (hn : bd.length = n)
    (hw : ∀ r ∈ bd, r.length = 2 * n - 1) :
    (shiftBd zero n (2 * n - 1) bd).length = n ∧
    ∀ i j, i < n → j < n →
      ((shiftBd zero n (2 * n - 1) bd)[i]?.bind (·[j]?)) = bd[i]?.bind (·[n - 1 - i + j]?) :=
  ⟨shift_length _ _ _ _, fun i j hi hj => shift_get zero n _ bd hn hw i j hi hj (by omega) (by omega)⟩

example : shiftBd 0 3 5 [[1, 2, 3, 4, 5], [11, 12, 13, 14, 15], [21, 22, 23, 24, 25]] =
    [[3, 4, 5], [12, 13, 14], [21, 22, 23]] := by decide

/-- The score that Transformer-XL defines: query and key at `distance`, scaled. -/
noncomputable def relTerm (a : RelAttn) (query : Nat → ℝ) (distance : Int) : ℝ :=
  dot a.headDim (fun e => query e + a.vBias e)
    (fun e => dot a.modelDim (a.rProj e) (sinusoid a.modelDim distance)) * (1 / √(a.headDim : ℝ))

/-- Attention of `n` queries to `n` keys. -/
noncomputable def relSpec (a : RelAttn) (n : Nat) (q k v : Nat → Nat → ℝ) (bias : Nat → Nat → Entry) (i c : Nat) :
    Option ℝ :=
  Nn.attend (1 / √(a.headDim : ℝ)) a.headDim n (fun e => q i e + a.uBias e) k v
    (fun j => (Entry.fin (relTerm a (q i) ((i : Int) - j))).add (bias i j)) c

/-- **Scores.** With as many queries as keys, the score of query `i` and key `j` is that of their contents
plus the term of Transformer-XL for the distance `i - j`. -/
theorem C89_scores (a : RelAttn) (n : Nat) (hn : n ≤ a.maxSeqLen) (q k v : Nat → Nat → ℝ)
    (bias : Nat → Nat → Entry) (i c : Nat) (hi : i < n) :
    a.attend n n q k v bias i c = relSpec a n q k v bias i c := by
  obtain ⟨enc, he, henc⟩ := (C89_encoding a.modelDim a.maxSeqLen n).1 hn
  unfold RelAttn.attend relSpec
  rw [← headScale_eq]
  rw [he, Option.bind_some]
  simp only
  rw [if_pos (by omega)]
  apply attend_congr
  · intro j hj
    congr 2
    unfold relTerm
    rw [← headScale_eq]
    congr 1
    have hcol : (if min n (2 * n - 1) = 1 then 0 else j) = j := by
      split
      · omega
      · rfl
    rw [hcol]
    rw [shift_get 0 n (2 * n - 1) _ (by simp) (by
      intro r hr
      obtain ⟨x, -, rfl⟩ := List.mem_map.1 hr
      simp) i j hi hj (by omega) (by omega)]
    rw [List.getElem?_map, List.getElem?_range hi]
    simp only [Option.map_some, Option.bind_some]
    rw [List.getElem?_map, List.getElem?_range (by omega)]
    simp only [Option.map_some, Option.getD_some]
    congr 1
    funext e
    have : enc (n - 1 - i + j) = fun c => enc (n - 1 - i + j) c := rfl
    unfold dot
    apply Finset.sum_congr rfl
    intro x _
    rw [henc (n - 1 - i + j) x (by omega)]
    congr 2
    omega
  · intro j hj _
    exact ⟨fun _ => rfl, fun _ => rfl⟩

/-- A head of dimension one whose positional term is the sine of the distance. -/
private noncomputable def sineHead : RelAttn := ⟨2, 1, 8, fun _ => 0, fun _ => 1, fun _ c => if c = 0 then 1 else 0⟩

example (q k v : Nat → Nat → ℝ) (bias : Nat → Nat → Entry) :
    sineHead.attend 3 3 q k v bias 2 0 = relSpec sineHead 3 q k v bias 2 0 :=
  C89_scores sineHead 3 (by decide) q k v bias 2 0 (by decide)

/-- **Padding.** Queries of a sequence of length `n` that is padded to `w`, with the padding hidden, get
what they get without padding. -/
theorem C89_padding (a : RelAttn) (n w : Nat) (hnw : n ≤ w) (hw : w ≤ a.maxSeqLen) (q k v : Nat → Nat → ℝ)
    (bias : Nat → Nat → Entry) (i c : Nat) (hi : i < n) (hide : ∀ j, n ≤ j → j < w → bias i j = .negInf) :
    a.attend w w q k v bias i c = a.attend n n q k v bias i c := by
  rw [C89_scores a w hw q k v bias i c (by omega), C89_scores a n (by omega) q k v bias i c hi]
  unfold relSpec
  rw [attend_stretch _ _ w _ k v _ c 0 n (by omega)]
  · simp only [Nat.zero_add]
  · intro j hj hout
    rw [hide j (by omega) hj]
    rfl

example (q k v : Nat → Nat → ℝ) :
    sineHead.attend 5 5 q k v (fun _ j => if j < 3 then .fin 0 else .negInf) 2 0 =
      sineHead.attend 3 3 q k v (fun _ j => if j < 3 then .fin 0 else .negInf) 2 0 :=
  C89_padding sineHead 3 5 (by decide) (by decide) q k v _ 2 0 (by decide) (fun j h _ => if_neg (by omega))

/-- **Refusal.** Several queries need as many keys: anything else is an error. -/
theorem C89_unequal (a : RelAttn) (s t : Nat) (hs : 2 ≤ s) (ht : 2 ≤ t) (hne : s ≠ t) (q k v : Nat → Nat → ℝ)
    (bias : Nat → Nat → Entry) (i c : Nat) :
    a.attend s t q k v bias i c = none := by
  unfold RelAttn.attend
  cases relEncoding a.modelDim a.maxSeqLen t with
  | none => rfl
  | some enc =>
    rw [Option.bind_some]
    simp only
    rw [if_neg (by omega)]

example (q k v : Nat → Nat → ℝ) (bias : Nat → Nat → Entry) : sineHead.attend 2 3 q k v bias 0 0 = none :=
  C89_unequal sineHead 2 3 (by decide) (by decide) (by decide) q k v bias 0 0

/-- **A single query**, as in decoding with a state, gets no positions at all: the attention is the one
without the positional term. -/
theorem C89_step (a : RelAttn) (t : Nat) (ht : 1 ≤ t) (hmax : t ≤ a.maxSeqLen) (q k v : Nat → Nat → ℝ)
    (bias : Nat → Nat → Entry) (c : Nat) :
    a.attend 1 t q k v bias 0 c =
      Nn.attend (1 / √(a.headDim : ℝ)) a.headDim t (fun e => q 0 e + a.uBias e) k v (bias 0) c := by
  obtain ⟨enc, he, -⟩ := (C89_encoding a.modelDim a.maxSeqLen t).1 hmax
  unfold RelAttn.attend
  rw [he, Option.bind_some]
  simp only
  rw [if_pos (by omega), show min 1 (2 * t - 1) = 1 by omega]
  simp only [if_true]
  rw [← headScale_eq]
  exact attend_const _ _ t _ k v (bias 0) c _

private theorem scale_one : headScale 1 = 1 := by
  unfold headScale
  simp

private theorem sine_term (δ : Int) : relTerm sineHead (fun _ => 0) δ = Real.sin δ := by
  unfold relTerm
  have h1 : 1 / √(sineHead.headDim : ℝ) = 1 := (headScale_eq 1).symm.trans scale_one
  rw [h1]
  simp [dot, sineHead, sinusoid, Finset.sum_range_succ]

/-- **Disagreement.** The last of two positions does not get the same as in a computation of both
positions if it is computed alone, with the keys and values of both. -/
theorem C89_step_negation : ∃ (a : RelAttn) (q k v : Nat → Nat → ℝ),
    a.attend 1 2 (fun _ => q 1) k v (fun _ _ => .fin 0) 0 0 ≠ a.attend 2 2 q k v (fun _ _ => .fin 0) 1 0 := by
  refine ⟨sineHead, fun _ _ => 0, fun _ _ => 0, fun j _ => if j = 0 then 1 else 0, ?_⟩
  rw [C89_step sineHead 2 (by decide) (by decide), C89_scores sineHead 2 (by decide) _ _ _ _ 1 0 (by decide)]
  unfold relSpec
  simp only [Nn.attend, sine_term, Entry.add, expBias, dot, Finset.sum_range_succ, Finset.sum_range_zero]
  have h1 : 1 / √(sineHead.headDim : ℝ) = 1 := (headScale_eq 1).symm.trans scale_one
  rw [h1]
  have hs : 0 < Real.sin 1 := Real.sin_pos_of_pos_of_lt_pi (by norm_num) (by linarith [Real.two_le_pi])
  have he : 1 < Real.exp (Real.sin 1) := Real.one_lt_exp_iff.2 hs
  simp [sineHead]
  intro _ h
  field_simp at h
  linarith

/-! ## Shaw's relative positions -/

/-- The row of the table for a distance from the query to the key: distances are clipped at `-lhs` and
`rhs`. -/
def clippedRow (lhs rhs : Nat) (distance : Int) : Nat :=
  if distance < -lhs then 0 else if rhs < distance then lhs + rhs else (distance + lhs).toNat

private theorem index_row (a : ShawAttn) (table : Nat → Nat → ℝ) (i j : Nat) :
    a.row table (a.relIndex i j) = some (table (clippedRow a.maxLhs a.maxRhs ((j : Int) - i))) := by
  have h : a.relIndex i j = (clippedRow a.maxLhs a.maxRhs ((j : Int) - i) : Nat) ∧
      clippedRow a.maxLhs a.maxRhs ((j : Int) - i) < a.maxLhs + 1 + a.maxRhs := by
    unfold ShawAttn.relIndex clamp clippedRow
    split
    · omega
    · split <;> omega
  unfold ShawAttn.row
  rw [if_pos (by omega), h.1, Int.toNat_natCast]

/-- Attention of the query at a position to `t` keys, as Shaw et al. define it. -/
noncomputable def shawSpec (a : ShawAttn) (t : Nat) (query : Nat → ℝ) (k v : Nat → Nat → ℝ) (bias : Nat → Entry)
    (position c : Nat) : Option ℝ :=
  let row (j : Nat) : Nat := clippedRow a.maxLhs a.maxRhs ((j : Int) - position)
  Nn.attend (1 / √(a.headDim : ℝ)) a.headDim t query k
    (fun j e => v j e + match a.relV with
      | none => 0
      | some table => table (row j) e)
    (fun j => (Entry.fin (dot a.headDim query (a.relK (row j)) * (1 / √(a.headDim : ℝ)))).add (bias j)) c

/-- **Shaw's attention.** No lookup fails, and query `i` of the last `s` of `t` positions gets what its
position `t - s + i` stands for: keys, and values if configured, for the clipped distances. -/
theorem C89_shaw (a : ShawAttn) (s t : Nat) (hst : s ≤ t) (q k v : Nat → Nat → ℝ) (bias : Nat → Nat → Entry)
    (i c : Nat) :
    a.attend s t q k v bias i c = shawSpec a t (q i) k v (bias i) (t - s + i) c := by
  unfold ShawAttn.attend shawSpec
  rw [← headScale_eq]
  rw [if_pos hst]
  rw [mapM_range_some _ (fun j => a.relK (clippedRow a.maxLhs a.maxRhs ((j : Int) - (t - s + i : Nat)))) t
    (fun j _ => index_row a a.relK (t - s + i) j)]
  rw [Option.bind_some]
  have hget : ∀ (table : Nat → Nat → ℝ) j, j < t →
      (((List.range t).map fun (j : Nat) => table (clippedRow a.maxLhs a.maxRhs ((j : Int) - (t - s + i : Nat)))).getD j
        fun _ => 0) = table (clippedRow a.maxLhs a.maxRhs ((j : Int) - (t - s + i : Nat))) := by
    intro table j hj
    rw [List.getD_eq_getElem?_getD, List.getElem?_map, List.getElem?_range hj]
    rfl
  cases hv : a.relV with
  | none =>
    simp only
    apply attend_congr
    · intro j hj
      rw [hget a.relK j hj]
    · intro j hj _
      exact ⟨fun _ => rfl, fun _ => (add_zero _).symm⟩
  | some table =>
    simp only
    rw [mapM_range_some _ (fun j => table (clippedRow a.maxLhs a.maxRhs ((j : Int) - (t - s + i : Nat)))) t
      (fun j _ => index_row a table (t - s + i) j)]
    rw [Option.bind_some, attend_add]
    apply attend_congr
    · intro j hj
      rw [hget a.relK j hj]
    · intro j hj _
      refine ⟨fun _ => rfl, fun e => ?_⟩
      rw [hget table j hj]

private noncomputable def smallShaw : ShawAttn := ⟨1, 1, 2, fun r _ => r, some fun r _ => r⟩

example : (List.range 6).map (fun j => clippedRow 1 2 ((j : Int) - 2)) = [0, 0, 1, 2, 3, 3] := by decide

example (q k v : Nat → Nat → ℝ) (bias : Nat → Nat → Entry) :
    smallShaw.attend 1 4 q k v bias 0 0 = shawSpec smallShaw 4 (q 0) k v (bias 0) 3 0 :=
  C89_shaw smallShaw 1 4 (by decide) q k v bias 0 0

/-- **Decoding with a state.** The last `s` of `t` positions get the same from a call with only their
queries as from a call with all. -/
theorem C89_shaw_step (a : ShawAttn) (s t : Nat) (hst : s ≤ t) (q k v : Nat → Nat → ℝ) (bias : Nat → Nat → Entry)
    (i c : Nat) :
    a.attend s t (fun i => q (t - s + i)) k v (fun i => bias (t - s + i)) i c =
      a.attend t t q k v bias (t - s + i) c := by
  rw [C89_shaw a s t hst, C89_shaw a t t (Nat.le_refl _), Nat.sub_self, Nat.zero_add]

/-- **Padding.** Queries of a sequence of length `n` that is padded to `w`, with the padding hidden, get
what they get without padding. -/
theorem C89_shaw_padding (a : ShawAttn) (n w : Nat) (hnw : n ≤ w) (q k v : Nat → Nat → ℝ)
    (bias : Nat → Nat → Entry) (i c : Nat) (hide : ∀ j, n ≤ j → j < w → bias i j = .negInf) :
    a.attend w w q k v bias i c = a.attend n n q k v bias i c := by
  rw [C89_shaw a w w (Nat.le_refl _), C89_shaw a n n (Nat.le_refl _), Nat.sub_self, Nat.sub_self, Nat.zero_add]
  unfold shawSpec
  simp only
  rw [attend_stretch _ _ w _ k _ _ c 0 n (by omega)]
  · simp only [Nat.zero_add]
  · intro j hj hout
    rw [hide j (by omega) hj]
    rfl

example (q k v : Nat → Nat → ℝ) :
    smallShaw.attend 5 5 q k v (fun _ j => if j < 3 then .fin 0 else .negInf) 1 0 =
      smallShaw.attend 3 3 q k v (fun _ j => if j < 3 then .fin 0 else .negInf) 1 0 :=
  C89_shaw_padding smallShaw 3 5 (by decide) q k v _ 1 0 (fun j h _ => if_neg (by omega))

end Fs2.Props
