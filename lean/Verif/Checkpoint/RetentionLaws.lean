import Verif.Checkpoint.Retention

/-!
# Retention: lemmas
-/

namespace Fs2.Ckpt

/-- Number of listed steps after `s`. -/
def after (steps : List Nat) (s : Nat) : Nat := (steps.filter fun q => decide (s < q)).length

/-- Number of scored steps that rank before `(x, s)`: a higher score, or the same and a later step. -/
def better (steps : List Nat) (score : Nat → Option Rat) (x : Rat) (s : Nat) : Nat :=
  (steps.filter fun q => match score q with
    | none => false
    | some y => decide (x < y ∨ (x = y ∧ s < q))).length

theorem drop_eq {l : List Nat} (h : l.Pairwise (· < ·)) (n : Nat) (s : Nat) :
    s ∈ l.drop (l.length - n) ↔ s ∈ l ∧ after l s < n := by
  induction l with
  | nil => simp
  | cons a l ih =>
    rw [List.pairwise_cons] at h
    by_cases hn : n ≤ l.length
    · have e : (a :: l).length - n = (l.length - n) + 1 := by simp; omega
      rw [e, List.drop_succ_cons, ih h.2]
      by_cases hs : s = a
      · subst hs
        have h1 : s ∉ l := fun hm => Nat.lt_irrefl _ (h.1 s hm)
        have h2 : l.filter (fun q => decide (s < q)) = l := by
          rw [List.filter_eq_self]; intro q hq; simpa using h.1 q hq
        simp only [h1, false_and, List.mem_cons, true_or, true_and, after, List.filter_cons,
          Nat.lt_irrefl, decide_false, Bool.false_eq_true, if_false, h2, false_iff]
        omega
      · by_cases hm : s ∈ l
        · have := h.1 s hm
          have : ¬ s < a := by omega
          simp [after, this, hm]
        · simp [hm, hs]
    · have e : (a :: l).length - n = 0 := by simp; omega
      rw [e, List.drop_zero]
      constructor
      · intro hm
        refine ⟨hm, ?_⟩
        have h1 : after (a :: l) s ≤ l.length := by
          rcases List.mem_cons.1 hm with rfl | hm'
          · simp only [after, List.filter_cons, Nat.lt_irrefl, decide_false, Bool.false_eq_true, if_false]
            exact List.length_filter_le _ _
          · have := h.1 s hm'
            have : ¬ s < a := by omega
            simp only [after, List.filter_cons, this, decide_false, Bool.false_eq_true, if_false]
            exact List.length_filter_le _ _
        omega
      · exact fun h => h.1

theorem pairLe_trans (a b c : Rat × Nat) : pairLe a b → pairLe b c → pairLe a c := by
  simp only [pairLe, decide_eq_true_eq]
  rintro (h | ⟨h1, h2⟩) (h' | ⟨h1', h2'⟩)
  · exact .inl (by grind)
  · exact .inl (by grind)
  · exact .inl (by grind)
  · exact .inr ⟨by grind, by omega⟩

theorem pairLe_total (a b : Rat × Nat) : (pairLe a b || pairLe b a) = true := by
  simp only [pairLe, Bool.or_eq_true, decide_eq_true_eq]
  by_cases h1 : a.1 < b.1
  · exact .inl (.inl h1)
  · by_cases h2 : b.1 < a.1
    · exact .inr (.inl h2)
    · have : a.1 = b.1 := by grind
      by_cases h3 : a.2 ≤ b.2
      · exact .inl (.inr ⟨this, h3⟩)
      · exact .inr (.inr ⟨this.symm, by omega⟩)

/-- The first `n` elements of a descending list without repetition. -/
theorem take_desc {l : List (Rat × Nat)} (hd : l.Nodup) (h : l.Pairwise fun a b => pairLe b a = true) (n : Nat)
    (a : Rat × Nat) :
    a ∈ l.take n ↔ a ∈ l ∧ (l.filter fun b => !pairLe b a).length < n := by
  induction l generalizing n with
  | nil => simp
  | cons x l ih =>
    rw [List.pairwise_cons] at h
    rw [List.nodup_cons] at hd
    cases n with
    | zero => simp
    | succ n =>
      rw [List.take_succ_cons, List.mem_cons, List.mem_cons, ih hd.2 h.2]
      have hself : pairLe a a = true := by simp [pairLe]
      by_cases hax : a = x
      · subst hax
        have : l.filter (fun b => !pairLe b a) = [] := by
          rw [List.filter_eq_nil_iff]
          intro b hb
          simp [h.1 b hb]
        simp [hself, this]
      · simp only [hax, false_or]
        refine and_congr_right fun hm => ?_
        have h1 := h.1 a hm
        have : pairLe x a = false := by
          cases hp : pairLe x a
          · rfl
          · exfalso
            simp only [pairLe, decide_eq_true_eq] at h1 hp
            apply hax
            rcases h1 with h1 | h1 <;> rcases hp with hp | hp
            · grind
            · grind
            · grind
            · exact Prod.ext h1.1 (by omega)
        simp [this]

theorem mem_best {steps : List Nat} (hs : steps.Nodup) (score : Nat → Option Rat) (n s : Nat) :
    s ∈ ((loadScores score steps).take n).map (·.2) ↔
      s ∈ steps ∧ ∃ x, score s = some x ∧ better steps score x s < n := by
  have hperm : (loadScores score steps).Perm (steps.filterMap fun n => (score n).map fun s => (s, n)) :=
    List.mergeSort_perm _ _
  have hnd : (steps.filterMap fun n => (score n).map fun s => (s, n)).Nodup := by
    clear hperm
    induction steps with
    | nil => simp
    | cons a l ih =>
      rw [List.nodup_cons] at hs
      rw [List.filterMap_cons]
      split
      · exact ih hs.2
      · next y hy =>
        rw [List.nodup_cons]
        refine ⟨fun hm => ?_, ih hs.2⟩
        obtain ⟨b, hb, hb'⟩ := List.mem_filterMap.1 hm
        cases hsa : score a with
        | none => simp [hsa] at hy
        | some z =>
          cases hsb : score b with
          | none => simp [hsb] at hb'
          | some w =>
            simp only [hsa, hsb, Option.map_some, Option.some.injEq] at hy hb'
            rw [← hb'] at hy
            have : a = b := congrArg Prod.snd hy
            exact hs.1 (this ▸ hb)
  have hsort : (loadScores score steps).Pairwise fun a b => pairLe b a = true :=
    List.pairwise_mergeSort (fun a b c h h' => pairLe_trans c b a h' h) (fun a b => pairLe_total b a) _
  have hcount : ∀ x, ((loadScores score steps).filter fun b => !pairLe b (x, s)).length = better steps score x s := by
    intro x
    rw [(hperm.filter _).length_eq]
    clear hperm hnd hsort
    unfold better
    induction steps with
    | nil => rfl
    | cons a l ih =>
      rw [List.nodup_cons] at hs
      cases hsa : score a with
      | none =>
        rw [List.filterMap_cons_none (by simp [hsa]), List.filter_cons]
        simp only [hsa, Bool.false_eq_true, if_false]
        exact ih hs.2
      | some y =>
        rw [List.filterMap_cons_some (b := (y, a)) (by simp [hsa]), List.filter_cons, List.filter_cons]
        have : (!pairLe (y, a) (x, s)) = decide (x < y ∨ (x = y ∧ s < a)) := by
          rw [Bool.eq_iff_iff]
          simp only [pairLe, Bool.not_eq_true', decide_eq_false_iff_not, decide_eq_true_eq]
          constructor
          · intro h
            rw [not_or] at h
            by_cases hxy : x < y
            · exact .inl hxy
            · have : x = y := by grind
              exact .inr ⟨this, Nat.lt_of_not_le fun hle => h.2 ⟨this.symm, hle⟩⟩
          · rintro (h | ⟨rfl, h⟩) (h' | ⟨h1, h2⟩)
            · grind
            · grind
            · grind
            · omega
        rw [this]
        simp only [hsa]
        split
        · simp only [List.length_cons, Nat.add_right_cancel_iff]
          exact ih hs.2
        · exact ih hs.2
  rw [List.mem_map]
  constructor
  · rintro ⟨⟨x, s'⟩, hm, rfl⟩
    rw [take_desc (hperm.nodup_iff.2 hnd) hsort, hcount] at hm
    have := hperm.mem_iff.1 hm.1
    obtain ⟨b, hb, hb'⟩ := List.mem_filterMap.1 this
    cases hsb : score b with
    | none => simp [hsb] at hb'
    | some w =>
      simp only [hsb, Option.map_some, Option.some.injEq, Prod.mk.injEq] at hb'
      obtain ⟨rfl, rfl⟩ := hb'
      exact ⟨hb, w, hsb, hm.2⟩
  · rintro ⟨hm, x, hx, hb⟩
    refine ⟨(x, s), ?_, rfl⟩
    rw [take_desc (hperm.nodup_iff.2 hnd) hsort, hcount]
    refine ⟨hperm.mem_iff.2 (List.mem_filterMap.2 ⟨s, hm, by simp [hx]⟩), hb⟩

theorem addKept_mem {o : Option Int} {keep k : List Nat} {f : Int → List Nat} (h : addKept o keep f = some k)
    {b : Nat} (hb : b ∈ keep) : b ∈ k := by
  cases o with
  | none => cases h; exact hb
  | some n =>
    simp only [addKept] at h
    split at h
    · cases h
    · cases h; simp [hb]

theorem addKept_some {o : Option Int} {keep : List Nat} (h : ∀ n, o = some n → 0 < n) :
    ∀ f : Int → List Nat, ∃ k, addKept o keep f = some k := by
  intro f
  cases o with
  | none => exact ⟨keep, rfl⟩
  | some n =>
    have := h n rfl
    exact ⟨keep ++ f n, by simp only [addKept]; rw [if_neg (by omega)]⟩

end Fs2.Ckpt
