import Verif.Pipeline.Buffered
import Verif.Pipeline.SimpleLaws

/-!
# Laws and streams of `bucket_by_length`
-/

namespace Fs2
open Source

section
variable {S : Source} {c : BblCfg}

theorem bblNext_sim {R : S.σ → S.σ → Prop} (hR : IsSim S R) {s s' t : BblSt S.σ} {r : Res}
    (h : s.bs = t.bs ∧ R s.inner t.inner) (hn : bblNext S.next c s = some (r, s')) :
    ∃ t', bblNext S.next c t = some (r, t') ∧ (s'.bs = t'.bs ∧ R s'.inner t'.inner) := by
  refine bblNext.partial_correctness S.next c
    (fun s x => ∀ t : BblSt S.σ, (s.bs = t.bs ∧ R s.inner t.inner) →
      ∃ t', bblNext S.next c t = some (x.1, t') ∧ (x.2.bs = t'.bs ∧ R x.2.inner t'.inner))
    ?_ s (r, s') hn t h
  intro f ih s x hx t h
  obtain ⟨b, i⟩ := s
  obtain ⟨b', j⟩ := t
  obtain ⟨h1, h2⟩ := h
  simp only at h1 h2
  subst h1
  rw [bblNext]
  simp only at hx ⊢
  split at hx
  · cases hx
  · next hi => 
    cases hx
    obtain ⟨j', hj, h'⟩ := hR.next h2 hi
    exact ⟨⟨b, j'⟩, by simp [hj], rfl, h'⟩
  · next hi =>
    obtain ⟨j', hj, h'⟩ := hR.next h2 hi
    rw [hj]
    simp only
    split at hx
    · cases hx; exact ⟨_, rfl, rfl, h'⟩
    · cases hx; exact ⟨_, rfl, rfl, h'⟩
  · next hi =>
    obtain ⟨j', hj, h'⟩ := hR.next h2 hi
    rw [hj]
    simp only
    split at hx
    · next hl => cases hx; exact ⟨⟨b, j'⟩, rfl, rfl, h'⟩
    · next hl =>
      split at hx
      · next h3 =>
        rw [if_pos h3]
        split at hx
        · next h4 => rw [if_pos h4]; exact ih _ _ hx _ ⟨rfl, h'⟩
        · next h4 => rw [if_neg h4]; cases hx; exact ⟨_, rfl, rfl, h'⟩
      · next h3 =>
        rw [if_neg h3]
        split at hx
        · next h5 =>
          rw [if_pos h5]
          split at hx
          · next h4 => rw [if_pos h4]; exact ih _ _ hx _ ⟨rfl, h'⟩
          · next h4 => rw [if_neg h4]; cases hx; exact ⟨_, rfl, rfl, h'⟩
        · next h5 =>
          rw [if_neg h5]
          split at hx
          · exact ih _ _ hx _ ⟨rfl, h'⟩
          · cases hx; exact ⟨_, rfl, rfl, h'⟩

theorem bbl_isSim : IsSim (bucketByLength c S)
    (fun s t : BblSt S.σ => s.bs = t.bs ∧ S.Same s.inner t.inner) where
  symm h := ⟨h.1.symm, h.2.symm⟩
  reset {s t} b h := ⟨by simp [bucketByLength, h.1], h.2.reset b⟩
  next h hn := bblNext_sim isSim_same h hn

/-! ## Buckets match their sizes -/

/-- Element-wise relation of two lists of the same length. -/
inductive All2 {α β : Type} (P : α → β → Prop) : List α → List β → Prop where
  | nil : All2 P [] []
  | cons {a b as bs} : P a b → All2 P as bs → All2 P (a :: as) (b :: bs)

theorem All2.append {α β : Type} {P : α → β → Prop} {as as' : List α} {bs bs' : List β}
    (h : All2 P as bs) (h' : All2 P as' bs') : All2 P (as ++ as') (bs ++ bs') := by
  induction h with
  | nil => exact h'
  | cons h _ ih => exact .cons h ih

theorem All2.reverse {α β : Type} {P : α → β → Prop} {as : List α} {bs : List β}
    (h : All2 P as bs) : All2 P as.reverse bs.reverse := by
  induction h with
  | nil => exact .nil
  | cons h _ ih => simpa using ih.append (.cons h .nil)

theorem All2.of_reverse {α β : Type} {P : α → β → Prop} {as : List α} {bs : List β}
    (h : All2 P as.reverse bs) : All2 P as bs.reverse := by simpa using h.reverse

theorem All2.imp {α β : Type} {P Q : α → β → Prop} {as : List α} {bs : List β}
    (h : All2 P as bs) (f : ∀ {a b}, P a b → Q a b) : All2 Q as bs := by
  induction h with
  | nil => exact .nil
  | cons h _ ih => exact .cons (f h) ih

/-- The example has a length from the minimum to `l`. -/
def BblCfg.Within (c : BblCfg) (l : Nat) (x : Data) : Prop :=
  ∃ k, c.len x = .ok k ∧ c.minLen ≤ k ∧ k ≤ l

/-- The contents of a bucket between two calls. -/
def BblCfg.Holds (c : BblCfg) (z : Nat × Nat) (b : List Data) : Prop :=
  (b = [] ∨ b.length < z.1) ∧ ∀ x ∈ b, c.Within z.2 x

theorem holds_nil (z : Nat × Nat) : c.Holds z [] := ⟨.inl rfl, by simp⟩

/-- A bucket that may be emitted. -/
def BblCfg.Batch (c : BblCfg) (szs : List (Nat × Nat)) (full : Bool) (b : List Data) : Prop :=
  ∃ z ∈ szs, b ≠ [] ∧ b.length ≤ max z.1 1 ∧ (full → b.length = max z.1 1) ∧ ∀ x ∈ b, c.Within z.2 x

theorem BblCfg.Batch.mono {szs szs' : List (Nat × Nat)} {full : Bool} {b : List Data}
    (h : c.Batch szs full b) (hs : ∀ z ∈ szs, z ∈ szs') : c.Batch szs' full b := by
  obtain ⟨z, hz, h⟩ := h
  exact ⟨z, hs z hz, h⟩

theorem bblPlace_none {szs : List (Nat × Nat)} {bs bs' : List (List Data)} {k : Nat} {x : Data}
    (h : All2 c.Holds szs bs) (hk : c.len x = .ok k) (hm : c.minLen ≤ k)
    (hfit : ∃ z ∈ szs, k ≤ z.2) (hp : bblPlace szs bs k x = (bs', none)) :
    All2 c.Holds szs bs' ∧ bs'.flatten.Perm (x :: bs.flatten) := by
  induction h generalizing bs' with
  | nil => obtain ⟨z, hz, _⟩ := hfit; cases hz
  | @cons z b szs bs hz hrest ih =>
    obtain ⟨n, l⟩ := z
    simp only [bblPlace] at hp
    split at hp
    · next hl =>
      split at hp
      · cases hp
      · next hn =>
        cases hp
        refine ⟨.cons ⟨.inr (by omega), ?_⟩ hrest, ?_⟩
        · intro y hy
          rcases List.mem_append.mp hy with hy | hy
          · exact hz.2 y hy
          · simp only [List.mem_singleton] at hy
            subst hy
            exact ⟨k, hk, hm, hl⟩
        · simpa using List.perm_middle
    · next hl =>
      cases hq : bblPlace szs bs k x with
      | mk bs1 o =>
        rw [hq] at hp
        cases hp
        obtain ⟨h1, h2⟩ := ih (by
          obtain ⟨z, hz, h⟩ := hfit
          rcases List.mem_cons.mp hz with rfl | hz
          · exact absurd h hl
          · exact ⟨z, hz, h⟩) hq
        refine ⟨.cons hz h1, ?_⟩
        simp only [List.flatten_cons]
        exact (h2.append_left b).trans List.perm_middle

theorem bblPlace_some {szs : List (Nat × Nat)} {bs bs' : List (List Data)} {k : Nat} {x : Data}
    {ys : List Data} (h : All2 c.Holds szs bs) (hk : c.len x = .ok k) (hm : c.minLen ≤ k)
    (hp : bblPlace szs bs k x = (bs', some ys)) :
    All2 c.Holds szs bs' ∧ (ys ++ bs'.flatten).Perm (x :: bs.flatten) ∧ c.Batch szs true ys := by
  induction h generalizing bs' with
  | nil => simp [bblPlace] at hp
  | @cons z b szs bs hz hrest ih =>
    obtain ⟨n, l⟩ := z
    simp only [bblPlace] at hp
    split at hp
    · next hl =>
      split at hp
      · next hn =>
        cases hp
        have hlen : (b ++ [x]).length = max n 1 := by
          rw [List.length_append, List.length_singleton] at *
          rcases hz.1 with rfl | h
          · simp only [List.length_nil] at *; omega
          · simp only at h; omega
        refine ⟨.cons (holds_nil _) hrest, ?_, (n, l), by simp, by simp, ?_, ?_, ?_⟩
        · simpa using List.perm_middle
        · exact Nat.le_of_eq hlen
        · exact fun _ => hlen
        · intro y hy
          rcases List.mem_append.mp hy with hy | hy
          · exact hz.2 y hy
          · simp only [List.mem_singleton] at hy
            subst hy
            exact ⟨k, hk, hm, hl⟩
      · cases hp
    · next hl =>
      cases hq : bblPlace szs bs k x with
      | mk bs1 o =>
        rw [hq] at hp
        cases hp
        obtain ⟨h1, h2, h3⟩ := ih hq
        refine ⟨.cons hz h1, ?_, h3.mono (fun z hz => by simp [hz])⟩
        simp only [List.flatten_cons]
        refine List.Perm.trans ?_ ((h2.append_left b).trans List.perm_middle)
        rw [← List.append_assoc, ← List.append_assoc]
        exact List.perm_append_comm.append_right _

/-! ## Draining the buckets -/

theorem bblPull_perm (k : Nat) (os : List (List Data)) (b : List Data) :
    ((bblPull k os b).2 ++ (bblPull k os b).1.flatten).Perm (b ++ os.flatten) := by
  induction os generalizing k b with
  | nil => simp [bblPull]
  | cons o os ih =>
    simp only [bblPull, List.flatten_cons]
    have h := ih (k - o.length) (b ++ o.reverse.take k)
    have h2 : (o.take (o.length - k) ++ o.reverse.take k).Perm o := by
      have : o.reverse.take k = (o.drop (o.length - k)).reverse := by
        rw [List.reverse_drop]
        by_cases hk : k ≤ o.length
        · congr 1; omega
        · rw [List.take_of_length_le (by simp; omega), List.take_of_length_le]
          simp only [List.length_reverse]; omega
      rw [this]
      refine List.Perm.trans ((List.reverse_perm _).append_left _) ?_
      rw [List.take_append_drop]
    have h3 : ∀ (a b c d : List Data), (a ++ (b ++ c)).Perm (b ++ (a ++ c)) := by
      intro a b c _
      rw [← List.append_assoc, ← List.append_assoc]
      exact List.perm_append_comm.append_right _
    refine (h3 _ _ _ []).trans ((h.append_left _).trans ?_)
    rw [List.append_assoc]
    refine (h3 _ _ _ []).trans (List.Perm.append_left b ?_)
    rw [← List.append_assoc]
    exact h2.append_right _

theorem bblPull_length (k : Nat) (os : List (List Data)) (b : List Data) :
    (bblPull k os b).2.length = b.length + min k os.flatten.length := by
  induction os generalizing k b with
  | nil => simp [bblPull]
  | cons o os ih =>
    simp only [bblPull, List.flatten_cons, List.length_append]
    rw [ih]
    simp only [List.length_append, List.length_take, List.length_reverse]
    omega

theorem bblPull_mem {k : Nat} {os : List (List Data)} {b : List Data} {x : Data}
    (hx : x ∈ (bblPull k os b).2) : x ∈ b ∨ x ∈ os.flatten := by
  have := (bblPull_perm k os b).mem_iff (a := x)
  simp only [List.mem_append] at this
  exact this.mp (.inl hx)

theorem bblPull_holds {k : Nat} {szs : List (Nat × Nat)} {os : List (List Data)} {b : List Data}
    (h : All2 c.Holds szs os) : All2 c.Holds szs (bblPull k os b).1 := by
  induction h generalizing k b with
  | nil => exact .nil
  | @cons z o szs os hz _ ih =>
    simp only [bblPull]
    refine .cons ⟨?_, fun x hx => hz.2 x (List.mem_of_mem_take hx)⟩ ih
    rcases hz.1 with rfl | h
    · exact .inl (by simp)
    · refine .inr ?_
      rw [List.length_take]; omega

/-- The sizes are sorted by length, longest first. -/
def Desc (szs : List (Nat × Nat)) : Prop := szs.Pairwise (fun a b => b.2 ≤ a.2)

theorem holds_within {szs : List (Nat × Nat)} {os : List (List Data)} {l : Nat}
    (h : All2 c.Holds szs os) (hl : ∀ z ∈ szs, z.2 ≤ l) : ∀ x ∈ os.flatten, c.Within l x := by
  induction h with
  | nil => simp
  | @cons z o szs os hz _ ih =>
    intro x hx
    rw [List.flatten_cons, List.mem_append] at hx
    rcases hx with hx | hx
    · obtain ⟨k, h1, h2, h3⟩ := hz.2 x hx
      exact ⟨k, h1, h2, Nat.le_trans h3 (hl z (by simp))⟩
    · exact ih (fun z hz => hl z (by simp [hz])) x hx

theorem bblFlush_some {drop : Bool} {szs : List (Nat × Nat)} {bs bs' : List (List Data)}
    {ys : List Data} (h : All2 c.Holds szs bs) (hd : Desc szs)
    (hf : bblFlush drop szs bs = (bs', some ys)) :
    All2 c.Holds szs bs' ∧ (ys ++ bs'.flatten).Perm bs.flatten ∧ c.Batch szs drop ys := by
  induction h generalizing bs' with
  | nil => simp [bblFlush] at hf
  | @cons z b szs bs hz hrest ih =>
    obtain ⟨n, l⟩ := z
    obtain ⟨hd1, hd2⟩ := List.pairwise_cons.mp hd
    simp only [bblFlush] at hf
    split at hf
    · next hb =>
      cases hq : bblFlush drop szs bs with
      | mk bs1 o =>
        rw [hq] at hf
        cases hf
        obtain ⟨h1, h2, h3⟩ := ih hd2 hq
        subst hb
        exact ⟨.cons hz h1, by simpa using h2, h3.mono (fun z hz => by simp [hz])⟩
    · next hb =>
      split at hf
      · cases hf
      · next hdrop =>
        cases hf
        have hlt : b.length < n := hz.1.resolve_left hb
        have hlen := bblPull_length (n - b.length) bs b
        refine ⟨.cons (holds_nil _) (bblPull_holds hrest), ?_, (n, l), by simp, ?_, ?_, ?_, ?_⟩
        · simpa using bblPull_perm (n - b.length) bs b
        · intro h0
          rw [h0] at hlen
          have := List.length_pos_iff.mpr hb
          simp only [List.length_nil] at hlen
          omega
        · rw [hlen]; simp only; omega
        · intro hd
          simp only [hd, ne_eq, true_and, Decidable.not_not] at hdrop
          rw [hdrop]; simp only; omega
        · intro x hx
          rcases bblPull_mem hx with hx | hx
          · exact hz.2 x hx
          · exact holds_within hrest (fun z hz => hd1 z hz) x hx

theorem bblFlush_none {drop : Bool} {szs : List (Nat × Nat)} {bs bs' : List (List Data)}
    (h : All2 c.Holds szs bs) (hf : bblFlush drop szs bs = (bs', none)) :
    bs' = szs.map (fun _ => []) ∧
      (bs.flatten = [] ∨ drop = true ∧ ∃ z ∈ szs, bs.flatten.length < z.1) := by
  induction h generalizing bs' with
  | nil => simp [bblFlush] at hf ⊢; exact hf
  | @cons z b szs bs hz hrest ih =>
    obtain ⟨n, l⟩ := z
    simp only [bblFlush] at hf
    split at hf
    · next hb =>
      cases hq : bblFlush drop szs bs with
      | mk bs1 o =>
        rw [hq] at hf
        cases hf
        obtain ⟨h1, h2⟩ := ih hq
        subst hb
        refine ⟨by simp [h1], ?_⟩
        rcases h2 with h2 | ⟨h2, z, h3, h4⟩
        · exact .inl (by simpa using h2)
        · exact .inr ⟨h2, z, by simp [h3], by simpa using h4⟩
    · next hb =>
      split at hf
      · next hdrop =>
        cases hf
        have hlt : b.length < n := hz.1.resolve_left hb
        have hlen := bblPull_length (n - b.length) bs b
        have hperm := (bblPull_perm (n - b.length) bs b).length_eq
        simp only [List.length_append] at hperm
        have hne := hdrop.2
        have h0 : (bblPull (n - b.length) bs b).1.flatten = [] := by
          apply List.eq_nil_of_length_eq_zero
          omega
        refine ⟨?_, .inr ⟨hdrop.1, (n, l), by simp, ?_⟩⟩
        · have hh := bblPull_holds (k := n - b.length) (b := b) hrest
          simp only [List.map_cons, List.cons.injEq, true_and]
          generalize (bblPull (n - b.length) bs b).1 = q at h0 hh
          clear hrest ih hlen hperm hdrop hne
          induction hh with
          | nil => rfl
          | @cons z o szs os _ _ ih =>
            simp only [List.flatten_cons, List.append_eq_nil_iff] at h0
            simp [h0.1, ih h0.2]
        · simp only [List.flatten_cons, List.length_append]; omega
      · cases hf

theorem bblFlush_empty {drop : Bool} {szs szs' : List (Nat × Nat)} :
    bblFlush drop szs (szs'.map (fun _ => [])) = (szs'.map (fun _ => []), none) := by
  induction szs' generalizing szs with
  | nil => cases szs <;> simp [bblFlush]
  | cons z szs' ih =>
    cases szs with
    | nil => simp [bblFlush]
    | cons w szs => obtain ⟨n, l⟩ := w; simp [bblFlush, ih]

/-! ## Laws -/

/-- The invariant: the buckets match their sizes. -/
def BblInv (c : BblCfg) (I : S.σ → Prop) (s : BblSt S.σ) : Prop :=
  All2 c.Holds c.sizes s.bs ∧ I s.inner

theorem all2_empty (szs : List (Nat × Nat)) : All2 c.Holds szs (szs.map (fun _ => [])) := by
  induction szs with
  | nil => exact .nil
  | cons z szs ih => exact .cons (holds_nil z) ih

theorem All2.map_nil {szs : List (Nat × Nat)} {bs : List (List Data)}
    (h : All2 c.Holds szs bs) : bs.map (fun _ => ([] : List Data)) = szs.map (fun _ => []) := by
  induction h with
  | nil => rfl
  | cons _ _ ih => simp [ih]

theorem maxLen_fits {k : Nat} (hne : c.sizes ≠ []) (h : ¬ c.maxLen < k) : ∃ z ∈ c.sizes, k ≤ z.2 := by
  refine ⟨c.sizes.getLast hne, List.getLast_mem hne, ?_⟩
  simp only [BblCfg.maxLen, List.getLast?_eq_some_getLast hne, Option.map_some,
    Option.getD_some] at h
  omega

/-- `bucket_sizes` as the builder leaves it (data_pipeline.cc:380-387): not empty,
sorted by length. -/
structure BblCfg.Valid (c : BblCfg) : Prop where
  ne : c.sizes ≠ []
  sorted : c.sizes.Pairwise (fun a b => a.2 ≤ b.2)

theorem BblCfg.Valid.desc (h : c.Valid) : Desc c.sizes.reverse := by
  rw [Desc, List.pairwise_reverse]
  exact h.sorted

theorem bblNext_inv {I : S.σ → Prop} (hI : Invar S I) (hv : c.Valid) {s s' : BblSt S.σ} {r : Res}
    (hs : BblInv c I s) (hn : bblNext S.next c s = some (r, s')) : ¬ r.fatal → BblInv c I s' := by
  refine bblNext.partial_correctness S.next c
    (fun s x => BblInv c I s → ¬ x.1.fatal → BblInv c I x.2) ?_ s (r, s') hn hs
  intro f ih s x hx hs hf
  obtain ⟨b, i⟩ := s
  obtain ⟨h1, h2⟩ := hs
  simp only at h1 h2 hx
  split at hx
  · cases hx
  · next hi => cases hx; exact ⟨h1, hI.next h2 hi hf⟩
  · next hi =>
    have h3 := hI.next h2 hi (by simp [Res.fatal])
    split at hx
    · next hq =>
      cases hx
      obtain ⟨h4, -⟩ := bblFlush_none h1.reverse hq
      refine ⟨?_, h3⟩
      have := all2_empty (c := c) c.sizes.reverse
      rw [← h4] at this
      exact this.of_reverse
    · next hq => cases hx; exact ⟨(bblFlush_some h1.reverse hv.desc hq).1.of_reverse, h3⟩
  · next hi =>
    split at hx
    · cases hx; exact ⟨h1, hI.next h2 hi (by simp [Res.fatal])⟩
    · next hl =>
      have h3 := hI.next h2 hi (by simp [Res.fatal])
      split at hx
      · split at hx
        · exact ih _ _ hx ⟨h1, h3⟩ hf
        · cases hx; exact ⟨h1, h3⟩
      · next hmin =>
        split at hx
        · split at hx
          · exact ih _ _ hx ⟨h1, h3⟩ hf
          · cases hx; exact ⟨h1, h3⟩
        · next hmax =>
          split at hx
          · next hp =>
            exact ih _ _ hx ⟨(bblPlace_none h1 hl (by omega) (maxLen_fits hv.ne hmax) hp).1, h3⟩ hf
          · next hp => cases hx; exact ⟨(bblPlace_some h1 hl (by omega) hp).1, h3⟩

theorem bbl_inv {I : S.σ → Prop} (hI : Invar S I) (hv : c.Valid) :
    Invar (bucketByLength c S) (BblInv c I) where
  reset {s} b h := ⟨by
    show All2 _ _ (s.bs.map fun _ => [])
    rw [h.1.map_nil]; exact all2_empty _, hI.reset b h.2⟩
  next hs hn hf := bblNext_inv hI hv hs hn hf

theorem bbl_inv_init {I : S.σ → Prop} (h : I S.init) : BblInv c I (bucketByLength c S).init :=
  ⟨all2_empty _, h⟩

theorem bbl_ended {i : S.σ} (h : S.Ended i) :
    (bucketByLength c S).Ended (⟨c.sizes.map (fun _ => []), i⟩ : BblSt S.σ) := by
  refine .coind (fun s : BblSt S.σ => s.bs = c.sizes.map (fun _ => []) ∧ S.Ended s.inner) ⟨rfl, h⟩ ?_
  rintro (s : BblSt S.σ) ⟨h1, h2⟩
  obtain ⟨b, i⟩ := s
  simp only at h1 h2
  subst h1
  obtain ⟨i', hi, he⟩ := h2.next
  refine ⟨⟨c.sizes.map (fun _ => []), i'⟩, ?_, rfl, he⟩
  show bblNext S.next c _ = _
  rw [bblNext]
  simp only [hi]
  rw [← List.map_reverse, bblFlush_empty]
  simp only [List.map_reverse, List.reverse_reverse]
  rfl

theorem bbl_eod {I : S.σ → Prop} (hI : Invar S I) (hE : EodFinal S I) (hv : c.Valid) :
    EodFinal (bucketByLength c S) (BblInv c I) := by
  intro s s' hs hn
  refine bblNext.partial_correctness S.next c
    (fun s x => BblInv c I s → x.1 = .eod → (bucketByLength c S).Ended x.2) ?_ s (.eod, s') hn hs rfl
  intro f ih s x hx hs he
  obtain ⟨b, i⟩ := s
  obtain ⟨h1, h2⟩ := hs
  simp only at h1 h2 hx
  split at hx
  · cases hx
  · cases hx; cases he
  · next hi =>
    split at hx
    · next hq =>
      cases hx
      obtain ⟨h4, -⟩ := bblFlush_none h1.reverse hq
      subst h4
      rw [← List.map_reverse, List.reverse_reverse]
      exact bbl_ended (hE h2 hi)
    · cases hx; cases he
  · next hi =>
    split at hx
    · cases hx; cases he
    · next hl =>
      have h3 := hI.next h2 hi (by simp [Res.fatal])
      split at hx
      · split at hx
        · exact ih _ _ hx ⟨h1, h3⟩ he
        · cases hx; cases he
      · next hmin =>
        split at hx
        · split at hx
          · exact ih _ _ hx ⟨h1, h3⟩ he
          · cases hx; cases he
        · next hmax =>
          split at hx
          · next hp =>
            exact ih _ _ hx ⟨(bblPlace_none h1 hl (by omega) (maxLen_fits hv.ne hmax) hp).1, h3⟩ he
          · cases hx; cases he

theorem readList_one (a : List Data) (rest : Tape) : readList ([.list a] ++ rest) = .ok (a, rest) :=
  rfl

theorem bbl_resumes {I : S.σ → Prop} {s t : BblSt S.σ} (hs : All2 c.Holds c.sizes s.bs)
    (h : Resumes S I s.inner t.inner) : Resumes (bucketByLength c S) (BblInv c I) s t := by
  obtain ⟨tp, h1, h2⟩ := h
  refine ⟨recordVec (fun b => [.list b]) s.bs ++ tp, by simp only [bucketByLength, h1], fun rest => ?_⟩
  obtain ⟨t', h3, h4, h5⟩ := h2 rest
  refine ⟨⟨s.bs, t'⟩, ?_, bbl_isSim.same ⟨rfl, h4⟩, hs, h5⟩
  simp only [bucketByLength, List.append_assoc]
  rw [readVec_recordVec readList_one]
  simp [h3]

theorem bbl_rewinds {s : BblSt S.σ} (hs : All2 c.Holds c.sizes s.bs) (h : Rewinds S s.inner) :
    Rewinds (bucketByLength c S) s := bbl_isSim.same ⟨hs.map_nil, h⟩

theorem bbl_restarts (h : Restarts S) : Restarts (bucketByLength c S) :=
  fun b => bbl_isSim.same ⟨by simp [bucketByLength], h b⟩

/-! ## The stream -/

/-- The example goes into a bucket. -/
def BblCfg.accepts (c : BblCfg) (x : Data) : Bool :=
  match c.len x with
  | .error _ => false
  | .ok k => decide (c.minLen ≤ k) && decide (k ≤ c.maxLen)

/-- The example is reported. -/
def BblCfg.rejects (c : BblCfg) (x : Data) : Option Err :=
  match c.len x with
  | .error e => some e
  | .ok k =>
    if k < c.minLen then if c.skipBelow then none else some bblShortErr
    else if c.maxLen < k then if c.skipAbove then none else some bblLongErr
    else none

/-- What comes out of buckets holding `bs` when the upstream goes on with `xs`. -/
structure BblTrace (c : BblCfg) (bs : List (List Data)) (xs : List Data) (rs : List Res)
    (outs : List (List Data)) (dropped : List Data) : Prop where
  noEod : ∀ r ∈ rs, r ≠ .eod
  yields : yielded rs = outs.map .list
  raises : raised rs = xs.filterMap c.rejects
  perm : (outs.flatten ++ dropped).Perm (bs.flatten ++ xs.filter c.accepts)
  batch : ∀ b ∈ outs, c.Batch c.sizes c.drop b
  dropped : dropped = [] ∨ c.drop = true ∧ ∃ z ∈ c.sizes, dropped.length < z.1

theorem bbl_drain (hv : c.Valid) {s : BblSt S.σ} (hs : All2 c.Holds c.sizes s.bs)
    (he : S.Ended s.inner) :
    ∃ rs outs dropped, (bucketByLength c S).Trace s rs ∧ BblTrace c s.bs [] rs outs dropped := by
  induction hk : s.bs.flatten.length using Nat.strongRecOn generalizing s with
  | _ k ih =>
    subst hk
    obtain ⟨i', hi, he'⟩ := he.next
    cases hq : bblFlush c.drop c.sizes.reverse s.bs.reverse with
    | mk bs' o =>
      have hperm : s.bs.reverse.flatten.Perm s.bs.flatten := (List.reverse_perm _).flatten
      cases o with
      | none =>
        have hstep : bblNext S.next c s = some (.eod, ⟨bs'.reverse, i'⟩) := by
          rw [bblNext]; simp only [hi, hq]
        obtain ⟨h1, h2⟩ := bblFlush_none hs.reverse hq
        subst h1
        rw [← List.map_reverse, List.reverse_reverse] at hstep
        refine ⟨[], [], s.bs.flatten, .nil (.of_next hstep (bbl_ended he')), ?_⟩
        refine ⟨by simp, rfl, rfl, by simp, by simp, ?_⟩
        rcases h2 with h2 | ⟨h2, z, h3, h4⟩
        · left
          rw [h2] at hperm
          simpa using hperm
        · refine .inr ⟨h2, z, by simpa using h3, ?_⟩
          rw [hperm.length_eq] at h4
          exact h4
      | some ys =>
        have hstep : bblNext S.next c s = some (.yield (.list ys), ⟨bs'.reverse, i'⟩) := by
          rw [bblNext]; simp only [hi, hq]
        obtain ⟨h1, h2, h3⟩ := bblFlush_some hs.reverse hv.desc hq
        have hlen := h2.length_eq
        rw [hperm.length_eq, List.length_append] at hlen
        have hne : 0 < ys.length := by
          obtain ⟨z, -, h, -⟩ := h3
          exact List.length_pos_iff.mpr h
        have hperm' : bs'.reverse.flatten.Perm bs'.flatten := (List.reverse_perm _).flatten
        obtain ⟨rs, outs, dropped, h4, h5⟩ := ih bs'.reverse.flatten.length
          (by rw [hperm'.length_eq]; omega) (s := ⟨bs'.reverse, i'⟩) h1.of_reverse he' rfl
        refine ⟨.yield (.list ys) :: rs, ys :: outs, dropped, .cons hstep h4, ?_⟩
        refine ⟨?_, by simp [yielded, h5.yields], by simpa [raised] using h5.raises, ?_, ?_,
          h5.dropped⟩
        · intro r hr
          rcases List.mem_cons.mp hr with rfl | hr
          · simp
          · exact h5.noEod r hr
        · have := h5.perm
          simp only [List.filter_nil, List.append_nil, List.flatten_cons, List.append_assoc] at this ⊢
          exact (this.append_left ys).trans ((hperm'.append_left ys).trans (h2.trans hperm))
        · intro b hb
          rcases List.mem_cons.mp hb with rfl | hb
          · exact h3.mono (fun z hz => by simpa using hz)
          · exact h5.batch b hb

theorem bbl_trace (hv : c.Valid) {s : BblSt S.σ} {xs : List Data}
    (hs : All2 c.Holds c.sizes s.bs) (hx : S.Yields s.inner xs) :
    ∃ rs outs dropped, (bucketByLength c S).Trace s rs ∧ BblTrace c s.bs xs rs outs dropped := by
  induction xs generalizing s with
  | nil => exact bbl_drain hv hs hx.nil_inv
  | cons x xs ih =>
    obtain ⟨bs, i⟩ := s
    simp only at hs hx
    obtain ⟨i', hi, hx'⟩ := hx.cons_inv
    have raise : ∀ e, c.rejects x = some e → c.accepts x = false →
        bblNext S.next c ⟨bs, i⟩ = some (.err e, ⟨bs, i'⟩) →
        ∃ rs outs dropped, (bucketByLength c S).Trace (⟨bs, i⟩ : BblSt S.σ) rs ∧
          BblTrace c bs (x :: xs) rs outs dropped := by
      intro e h1 h2 h3
      obtain ⟨rs, outs, dropped, h4, h5⟩ := ih (s := ⟨bs, i'⟩) hs hx'
      refine ⟨.err e :: rs, outs, dropped, .cons h3 h4, ?_, ?_, ?_, ?_, h5.batch, h5.dropped⟩
      · intro r hr
        rcases List.mem_cons.mp hr with rfl | hr
        · simp
        · exact h5.noEod r hr
      · simpa [yielded] using h5.yields
      · simp [raised, h1, h5.raises]
      · simpa [h2] using h5.perm
    have skip : ∀ bs', c.rejects x = none → All2 c.Holds c.sizes bs' →
        bs'.flatten.Perm ((if c.accepts x then [x] else []) ++ bs.flatten) →
        bblNext S.next c ⟨bs, i⟩ = bblNext S.next c ⟨bs', i'⟩ →
        ∃ rs outs dropped, (bucketByLength c S).Trace (⟨bs, i⟩ : BblSt S.σ) rs ∧
          BblTrace c bs (x :: xs) rs outs dropped := by
      intro bs' h1 h2 h2' h3
      obtain ⟨rs, outs, dropped, h4, h5⟩ := ih (s := ⟨bs', i'⟩) h2 hx'
      refine ⟨rs, outs, dropped, .of_next_eq (show (bucketByLength c S).next _ = _ from h3) h4,
        h5.noEod, h5.yields, ?_, ?_, h5.batch, h5.dropped⟩
      · simp [h1, h5.raises]
      · refine h5.perm.trans ((h2'.append_right _).trans ?_)
        by_cases ha : c.accepts x
        · simp only [ha, if_pos, List.filter_cons_of_pos, List.singleton_append, List.cons_append]
          exact List.perm_middle.symm
        · simp [ha]
    cases hl : c.len x with
    | error e =>
      refine raise e (by simp [BblCfg.rejects, hl]) (by simp [BblCfg.accepts, hl]) ?_
      rw [bblNext]; simp [hi, hl]
    | ok k =>
      by_cases h1 : k < c.minLen
      · have hacc : c.accepts x = false := by
          simp only [BblCfg.accepts, hl, Bool.and_eq_false_iff, decide_eq_false_iff_not]; omega
        by_cases h2 : c.skipBelow = true
        · refine skip bs (by simp [BblCfg.rejects, hl, h1, h2]) hs (by simp [hacc]) ?_
          rw [bblNext]; simp [hi, hl, h1, h2]
        · refine raise bblShortErr (by simp [BblCfg.rejects, hl, h1, h2]) hacc ?_
          rw [bblNext]; simp [hi, hl, h1, h2]
      · by_cases h3 : c.maxLen < k
        · have hacc : c.accepts x = false := by
            simp only [BblCfg.accepts, hl, Bool.and_eq_false_iff, decide_eq_false_iff_not]; omega
          by_cases h2 : c.skipAbove = true
          · refine skip bs (by simp [BblCfg.rejects, hl, h1, h2, h3]) hs (by simp [hacc]) ?_
            rw [bblNext]; simp [hi, hl, h1, h2, h3]
          · refine raise bblLongErr (by simp [BblCfg.rejects, hl, h1, h2, h3]) hacc ?_
            rw [bblNext]; simp [hi, hl, h1, h2, h3]
        · have hacc : c.accepts x = true := by
            simp only [BblCfg.accepts, hl, Bool.and_eq_true, decide_eq_true_eq]; omega
          have hrej : c.rejects x = none := by simp [BblCfg.rejects, hl, h1, h3]
          cases hp : bblPlace c.sizes bs k x with
          | mk bs' o =>
            cases o with
            | none =>
              obtain ⟨h4, h5⟩ := bblPlace_none hs hl (by omega) (maxLen_fits hv.ne h3) hp
              refine skip bs' hrej h4 (by simpa [hacc] using h5) ?_
              rw [bblNext]; simp [hi, hl, h1, h3, hp]
            | some ys =>
              obtain ⟨h4, h5, h6⟩ := bblPlace_some hs hl (by omega) hp
              obtain ⟨rs, outs, dropped, h7, h8⟩ := ih (s := ⟨bs', i'⟩) h4 hx'
              have hstep : bblNext S.next c ⟨bs, i⟩ = some (.yield (.list ys), ⟨bs', i'⟩) := by
                rw [bblNext]; simp [hi, hl, h1, h3, hp]
              refine ⟨.yield (.list ys) :: rs, ys :: outs, dropped, .cons hstep h7, ?_, ?_, ?_, ?_,
                ?_, h8.dropped⟩
              · intro r hr
                rcases List.mem_cons.mp hr with rfl | hr
                · simp
                · exact h8.noEod r hr
              · simp [yielded, h8.yields]
              · simp [raised, hrej, h8.raises]
              · have h9 := h8.perm
                simp only [hacc, List.filter_cons_of_pos, List.flatten_cons, List.append_assoc] at h9 ⊢
                refine (h9.append_left ys).trans ?_
                rw [← List.append_assoc]
                refine (h5.append_right _).trans ?_
                rw [List.cons_append]
                exact List.perm_middle.symm
              · intro b hb
                rcases List.mem_cons.mp hb with rfl | hb
                · obtain ⟨z, hz, a1, a2, a3, a4⟩ := h6
                  exact ⟨z, hz, a1, a2, fun _ => a3 rfl, a4⟩
                · exact h8.batch b hb

end
end Fs2
