import Verif.Pipeline.Buffered
import Verif.Pipeline.SimpleLaws

/-!
# Laws and streams of `pack`
-/

namespace Fs2
open Source

section
variable {S : Source} {c : PackCfg}

theorem packLoop_sim {R : S.σ → S.σ → Prop} (hR : IsSim S R) {p : Pack} {s s' t : PackSt S.σ}
    {r : Res} (h : s.rem = t.rem ∧ R s.inner t.inner)
    (hn : packLoop S.next c p s = some (r, s')) :
    ∃ t', packLoop S.next c p t = some (r, t') ∧ (s'.rem = t'.rem ∧ R s'.inner t'.inner) := by
  refine packLoop.partial_correctness S.next c
    (fun p s x => ∀ t : PackSt S.σ, (s.rem = t.rem ∧ R s.inner t.inner) →
      ∃ t', packLoop S.next c p t = some (x.1, t') ∧ (x.2.rem = t'.rem ∧ R x.2.inner t'.inner))
    ?_ p s (r, s') hn t h
  intro f ih p s x hx t h
  obtain ⟨a, i⟩ := s
  obtain ⟨a', j⟩ := t
  obtain ⟨h1, h2⟩ := h
  simp only at h1 h2
  subst h1
  rw [packLoop]
  simp only at hx ⊢
  split at hx
  · split at hx
    · exact ih _ _ _ hx _ ⟨rfl, h2⟩
    · cases hx; exact ⟨_, rfl, rfl, h2⟩
    · cases hx; exact ⟨_, rfl, rfl, h2⟩
  · split at hx
    · cases hx
    · next hi =>
      cases hx
      obtain ⟨j', hj, h'⟩ := hR.next h2 hi
      rw [hj]; exact ⟨_, rfl, rfl, h'⟩
    · next hi =>
      cases hx
      obtain ⟨j', hj, h'⟩ := hR.next h2 hi
      rw [hj]; exact ⟨_, rfl, rfl, h'⟩
    · next hi =>
      obtain ⟨j', hj, h'⟩ := hR.next h2 hi
      rw [hj]
      simp only
      split at hx
      · exact ih _ _ _ hx _ ⟨rfl, h'⟩
      · cases hx; exact ⟨_, rfl, rfl, h'⟩
      · cases hx; exact ⟨_, rfl, rfl, h'⟩
    · next hno hi =>
      cases hx
      obtain ⟨j', hj, h'⟩ := hR.next h2 hi
      rw [hj]
      refine ⟨⟨none, j'⟩, ?_, rfl, h'⟩
      split
      · next h9 => cases h9
      · next h9 => cases h9
      · next h9 => cases h9
      · next h9 => cases h9; exact absurd rfl (hno _)
      · next h9 => cases h9; rfl

theorem pack_isSim : IsSim (pack c S)
    (fun s t : PackSt S.σ => s.rem = t.rem ∧ S.Same s.inner t.inner) where
  symm h := ⟨h.1.symm, h.2.symm⟩
  reset b h := ⟨rfl, h.2.reset b⟩
  next h hn := packLoop_sim isSim_same h hn

theorem pack_inv {I : S.σ → Prop} (hI : Invar S I) :
    Invar (pack c S) (fun s : PackSt S.σ => I s.inner) where
  reset b h := hI.reset b h
  next {s r s'} hs hn hf := by
    refine packLoop.partial_correctness S.next c
      (fun _ s x => I s.inner → ¬ x.1.fatal → I x.2.inner) ?_ _ s (r, s') hn hs hf
    intro f ih p s x hx hs hf
    split at hx
    · split at hx
      · exact ih _ _ _ hx hs hf
      · cases hx; exact hs
      · cases hx; exact hs
    · split at hx
      · cases hx
      · next hi => cases hx; exact hI.next hs hi (by simp [Res.fatal])
      · next hi => cases hx; exact hI.next hs hi hf
      · next hi =>
        have h1 := hI.next hs hi (by simp [Res.fatal])
        split at hx
        · exact ih _ _ _ hx h1 hf
        · cases hx; exact h1
        · cases hx; exact h1
      · next hi => cases hx; exact hI.next hs hi (by simp [Res.fatal])

theorem pack_next (s : PackSt S.σ) :
    (pack c S).next s = packLoop S.next c ⟨false, [], []⟩ s := rfl

theorem pack_ended {i : S.σ} (h : S.Ended i) : (pack c S).Ended (⟨none, i⟩ : PackSt S.σ) := by
  refine .coind (fun s : PackSt S.σ => s.rem = none ∧ S.Ended s.inner) ⟨rfl, h⟩ ?_
  rintro (s : PackSt S.σ) ⟨h1, h2⟩
  obtain ⟨a, i⟩ := s
  simp only at h1 h2
  subst h1
  obtain ⟨i', hi, he⟩ := h2.next
  refine ⟨⟨none, i'⟩, ?_, rfl, he⟩
  rw [pack_next, packLoop]
  simp [hi, packEnd]
  rfl

/-- A pack that is complete is returned. -/
theorem packStep_stop {p q : Pack} {t : List Int} {filled : Bool} {rem : Option (List Int)}
    (h : packStep c p t = .stop q filled rem) :
    q.defined = true ∧ (filled = true ∨ c.truncate = false) := by
  simp only [packStep] at h
  split at h
  · cases h
  · split at h
    · split at h
      · split at h
        · cases h; simp
        · cases h
      · next ht =>
        split at h
        · cases h
        · cases h; simp at ht; simp [ht]
    · split at h
      · cases h; simp
      · cases h

theorem packEnd_stop {p q : Pack} {t : List Int} {filled : Bool} {rem : Option (List Int)}
    (h : packStep c p t = .stop q filled rem) : packEnd c q filled = .yield (packOut c q) := by
  obtain ⟨h1, h2⟩ := packStep_stop h
  simp only [packEnd]
  rw [if_neg, if_pos h1]
  rcases h2 with h2 | h2 <;> simp [h2]

theorem pack_eod {I : S.σ → Prop} (hI : Invar S I) (hE : EodFinal S I) :
    EodFinal (pack c S) (fun s : PackSt S.σ => I s.inner) := by
  intro s s' hs hn
  refine packLoop.partial_correctness S.next c
    (fun _ s x => I s.inner → x.1 = .eod → (pack c S).Ended x.2) ?_ _ s (.eod, s') hn hs rfl
  intro f ih p s x hx hs he
  split at hx
  · split at hx
    · exact ih _ _ _ hx hs he
    · next hst => cases hx; rw [packEnd_stop hst] at he; cases he
    · cases hx; cases he
  · split at hx
    · cases hx
    · next hi => cases hx; exact pack_ended (hE hs hi)
    · cases hx; cases he
    · next hi =>
      have h1 := hI.next hs hi (by simp [Res.fatal])
      split at hx
      · exact ih _ _ _ hx h1 he
      · next hst => cases hx; rw [packEnd_stop hst] at he; cases he
      · cases hx; cases he
    · cases hx; cases he

theorem pack_resumes {I : S.σ → Prop} {s t : PackSt S.σ} (hr : s.rem = none → t.rem = none)
    (h : Resumes S I s.inner t.inner) :
    Resumes (pack c S) (fun s : PackSt S.σ => I s.inner) s t := by
  obtain ⟨tp, h1, h2⟩ := h
  refine ⟨match s.rem with | some r => .bool true :: .tensor r :: tp | none => .bool false :: tp,
    by simp only [pack, h1]; cases s.rem <;> rfl, fun rest => ?_⟩
  obtain ⟨t', h3, h4, h5⟩ := h2 rest
  cases hc : s.rem with
  | none =>
    refine ⟨⟨t.rem, t'⟩, by simp [pack, h3, readBool],
      pack_isSim.same ⟨(hr hc).trans hc.symm, h4⟩, h5⟩
  | some r =>
    refine ⟨⟨some r, t'⟩, by simp [pack, h3, readBool, readTensor],
      pack_isSim.same ⟨hc.symm, h4⟩, h5⟩

theorem pack_rewinds {s : PackSt S.σ} (h : Rewinds S s.inner) :
    Rewinds (pack c S) s := pack_isSim.same ⟨rfl, h⟩

theorem pack_restarts (h : Restarts S) : Restarts (pack c S) :=
  fun b => pack_isSim.same ⟨rfl, h b⟩

/-! ## The stream -/

/-- The sequences not yet packed: the remainder, and what comes from upstream. -/
def Pending (S : Source) (s : PackSt S.σ) (ts : List (List Int)) : Prop :=
  match s.rem with
  | none => S.Yields s.inner (ts.map .tensor)
  | some t => ∃ ts', ts = t :: ts' ∧ S.Yields s.inner (ts'.map .tensor)

/-- One round of the loop, wherever the sequence comes from. -/
theorem pack_round {s : PackSt S.σ} {p : Pack} {t : List Int} {ts : List (List Int)}
    (h : Pending S s (t :: ts)) :
    ∃ i, S.Yields i (ts.map .tensor) ∧ packLoop S.next c p s =
      match packStep c p t with
      | .more p rem => packLoop S.next c p ⟨rem, i⟩
      | .stop p filled rem => some (packEnd c p filled, ⟨rem, i⟩)
      | .fail => some (.err packLongErr, ⟨none, i⟩) := by
  obtain ⟨a, i⟩ := s
  cases a with
  | none =>
    simp only [Pending, List.map_cons] at h
    obtain ⟨i', hi, h'⟩ := h.cons_inv
    refine ⟨i', h', ?_⟩
    rw [packLoop]
    simp only [hi]
    rfl
  | some u =>
    simp only [Pending] at h
    obtain ⟨ts', h1, h2⟩ := h
    cases h1
    refine ⟨i, h2, ?_⟩
    rw [packLoop]
    rfl

theorem pack_last {s : PackSt S.σ} {p : Pack} (h : Pending S s []) :
    ∃ i, S.Ended i ∧ packLoop S.next c p s = some (packEnd c p false, ⟨none, i⟩) := by
  obtain ⟨a, i⟩ := s
  cases a with
  | none =>
    simp only [Pending, List.map_nil] at h
    obtain ⟨i', hi, h'⟩ := h.nil_inv.next
    refine ⟨i', h', ?_⟩
    rw [packLoop]
    simp only [hi]
  | some u =>
    obtain ⟨ts', h1, h2⟩ := h
    cases h1

theorem pending_none {i : S.σ} {ts : List (List Int)} (h : S.Yields i (ts.map .tensor)) :
    Pending S ⟨none, i⟩ ts := h

theorem pending_some {i : S.σ} {t : List Int} {ts : List (List Int)}
    (h : S.Yields i (ts.map .tensor)) : Pending S ⟨some t, i⟩ (t :: ts) := ⟨ts, rfl, h⟩

/-- The sequences that are not empty. -/
def nonEmpty (ts : List (List Int)) : List (List Int) := ts.filter (fun t => !t.isEmpty)

theorem nonEmpty_cons (t : List Int) (ts : List (List Int)) :
    nonEmpty (t :: ts) = if t = [] then nonEmpty ts else t :: nonEmpty ts := by
  cases t <;> simp [nonEmpty]

theorem nonEmpty_flatten (ts : List (List Int)) : (nonEmpty ts).flatten = ts.flatten := by
  induction ts with
  | nil => rfl
  | cons t ts ih =>
    rw [nonEmpty_cons]
    split
    · next h => simp [h, ih]
    · simp [ih]

theorem nonEmpty_append (ts us : List (List Int)) : nonEmpty (ts ++ us) = nonEmpty ts ++ nonEmpty us := by
  simp [nonEmpty]

/-! ### Without truncation -/

/-- One call without truncation. -/
theorem pack_call (ht : c.truncate = false) (hcap : 0 < c.cap) {ts : List (List Int)}
    {s : PackSt S.σ} {p : Pack} (hp : p.toks.length < c.cap) (hdef : p.toks ≠ [] → p.defined = true)
    (h : Pending S s ts) :
    ∃ r s' used rest, ts = used ++ rest ∧ Pending S s' rest ∧
      packLoop S.next c p s = some (r, s') ∧
      ((r = .yield (packOut c ⟨true, p.toks ++ used.flatten,
            p.lens ++ (nonEmpty used).map List.length⟩) ∧
          p.toks.length + used.flatten.length ≤ c.cap ∧ (∀ u ∈ used, u.length ≤ c.maxLen) ∧
          (p.defined = true ∨ used ≠ [])) ∨
        (r = .err packLongErr ∧ p.toks = [] ∧ ∃ es t, used = es ++ [t] ∧ nonEmpty es = [] ∧
          min c.cap c.maxLen < t.length) ∨
        (r = .eod ∧ used = [] ∧ rest = [] ∧ p.defined = false ∧ (pack c S).Ended s')) := by
  induction ts generalizing s p with
  | nil =>
    obtain ⟨i, h1, h2⟩ := pack_last (c := c) (p := p) h
    refine ⟨_, _, [], [], rfl, pending_none ⟨i, .nil _, h1⟩, h2, ?_⟩
    cases hd : p.defined with
    | true =>
      left
      refine ⟨?_, by simp; omega, by simp, .inl rfl⟩
      obtain ⟨d, a, b⟩ := p
      simp only at hd
      simp [packEnd, ht, hd, nonEmpty]
    | false =>
      right; right
      refine ⟨?_, rfl, rfl, rfl, pack_ended h1⟩
      simp [packEnd, hd]
  | cons t ts ih =>
    obtain ⟨i, h1, h2⟩ := pack_round (c := c) (p := p) h
    by_cases h0 : t = []
    · subst h0
      simp only [packStep, if_pos] at h2
      obtain ⟨r, s', used, rest, e1, e2, e3, e4⟩ := ih (p := ⟨true, p.toks, p.lens⟩) hp (fun _ => rfl)
        (pending_none h1)
      refine ⟨r, s', [] :: used, rest, by simp [e1], e2, h2.trans e3, ?_⟩
      rcases e4 with ⟨a1, a2, a3, -⟩ | ⟨a1, a2, es, t, a3, a4, a5⟩ | ⟨-, -, -, a4, -⟩
      · left
        refine ⟨?_, by simpa using a2, ?_, .inr (by simp)⟩
        · rw [a1]; simp [nonEmpty_cons]
        · intro u hu
          rcases List.mem_cons.mp hu with rfl | hu
          · simp
          · exact a3 u hu
      · right; left
        exact ⟨a1, a2, [] :: es, t, by simp [a3], by simpa [nonEmpty_cons] using a4, a5⟩
      · cases a4
    · simp only [packStep, if_neg h0, ht] at h2
      by_cases hfit : min t.length (min (c.cap - p.toks.length) c.maxLen) < t.length
      · simp only [hfit, if_true] at h2
        by_cases hz : p.toks.length = 0
        · simp only [hz, if_true] at h2
          refine ⟨_, _, [t], ts, rfl, pending_none h1, by simpa using h2, .inr (.inl ⟨rfl, ?_, [], t, rfl, rfl, ?_⟩)⟩
          · simpa using hz
          · omega
        · simp only [hz, if_false] at h2
          refine ⟨_, _, [], t :: ts, rfl, pending_some h1, by simpa using h2, ?_⟩
          -- the pack is returned and the sequence kept
          left
          exact ⟨by simp [packEnd, ht, nonEmpty], by simp only [List.flatten_nil, List.length_nil]; omega,
            by simp, .inl (hdef (by intro h; simp [h] at hz))⟩
      · simp only [hfit, if_false] at h2
        have hle : t.length ≤ c.cap - p.toks.length ∧ t.length ≤ c.maxLen := by omega
        have hmin : min t.length (min (c.cap - p.toks.length) c.maxLen) = t.length := by omega
        rw [hmin] at h2
        by_cases hfull : p.toks.length + t.length = c.cap
        · simp only [hfull, decide_true, if_true] at h2
          refine ⟨_, _, [t], ts, rfl, pending_none h1, h2, .inl ⟨?_, ?_, ?_, .inr (by simp)⟩⟩
          · simp [packEnd, nonEmpty_cons, h0, nonEmpty]
          · simp; omega
          · simp [hle.2]
        · simp only [hfull, decide_false] at h2
          obtain ⟨r, s', used, rest, e1, e2, e3, e4⟩ := ih
            (p := ⟨true, p.toks ++ t, p.lens ++ [t.length]⟩) (by simp; omega) (fun _ => rfl)
            (pending_none h1)
          refine ⟨r, s', t :: used, rest, by simp [e1], e2, by simpa using h2.trans e3, ?_⟩
          rcases e4 with ⟨a1, a2, a3, -⟩ | ⟨a1, a2, es, t, a3, a4, a5⟩ | ⟨-, -, -, a4, -⟩
          · left
            refine ⟨?_, ?_, ?_, .inr (by simp)⟩
            · rw [a1]; simp [nonEmpty_cons, h0]
            · simp at a2 ⊢; omega
            · intro u hu
              rcases List.mem_cons.mp hu with rfl | hu
              · exact hle.2
              · exact a3 u hu
          · simp [h0] at a2
          · cases a4

/-- A pack of whole sequences. -/
def packOf (c : PackCfg) (g : List (List Int)) : Data :=
  packOut c ⟨true, g.flatten, g.map List.length⟩

/-- The sequence can be packed without truncation. -/
def PackCfg.fits (c : PackCfg) (t : List Int) : Bool := decide (t.length ≤ min c.cap c.maxLen)

theorem filter_fits {us : List (List Int)} (h : ∀ u ∈ us, c.fits u = true) :
    us.filter c.fits = us ∧ us.filter (fun u => !c.fits u) = [] := by
  constructor
  · exact List.filter_eq_self.mpr h
  · rw [List.filter_eq_nil_iff]; intro u hu; simp [h u hu]

theorem nonEmpty_filter (us : List (List Int)) :
    nonEmpty (us.filter c.fits) = (nonEmpty us).filter c.fits := by
  simp only [nonEmpty, List.filter_filter]
  congr 1
  funext u
  exact Bool.and_comm _ _

theorem empties_flatten {es : List (List Int)} (h : nonEmpty es = []) : ∀ e ∈ es, e = [] := by
  intro e he
  simp only [nonEmpty, List.filter_eq_nil_iff] at h
  have := h e he
  simpa using this

theorem mem_le_sum {k : Nat} {ks : List Nat} (h : k ∈ ks) : k ≤ ks.sum := by
  induction ks with
  | nil => cases h
  | cons a ks ih =>
    rw [List.sum_cons]
    rcases List.mem_cons.mp h with rfl | h
    · omega
    · have := ih h; omega

theorem pack_trace (ht : c.truncate = false) (hcap : 0 < c.cap) {ts : List (List Int)}
    {s : PackSt S.σ} (h : Pending S s ts) :
    ∃ (rs : List Res) (groups : List (List (List Int))), (pack c S).Trace s rs ∧ (∀ r ∈ rs, r ≠ .eod) ∧
      yielded rs = groups.map (packOf c) ∧
      groups.flatten = nonEmpty (ts.filter c.fits) ∧
      (∀ g ∈ groups, g.flatten.length ≤ c.cap) ∧
      raised rs = (ts.filter fun t => !c.fits t).map (fun _ => packLongErr) := by
  induction hn : ts.length using Nat.strongRecOn generalizing ts s with
  | _ n ih =>
    subst hn
    obtain ⟨r, s', used, rest, e1, e2, e3, e4⟩ := pack_call (p := ⟨false, [], []⟩) ht hcap hcap
      (by simp) h
    rcases e4 with ⟨a1, a2, a3, a4⟩ | ⟨a1, a2, es, t, a3, a4, a5⟩ | ⟨a1, a2, a3, a4, a5⟩
    · have hne : used ≠ [] := a4.resolve_left (by simp)
      have hlt : rest.length < ts.length := by
        rw [e1, List.length_append]; have := List.length_pos_iff.mpr hne; omega
      obtain ⟨rs, groups, b1, b2, b3, b4, b5, b6⟩ := ih _ hlt e2 rfl
      have hfit : ∀ u ∈ used, c.fits u = true := by
        intro u hu
        have h1 := a3 u hu
        have h2 : u.length ≤ used.flatten.length := by
          rw [List.length_flatten]
          exact mem_le_sum (List.mem_map_of_mem hu)
        simp only [PackCfg.fits, decide_eq_true_eq]
        simp only [List.length_nil] at a2
        omega
      obtain ⟨f1, f2⟩ := filter_fits hfit
      subst a1
      refine ⟨_ :: rs, nonEmpty used :: groups, .cons ((pack_next s).trans e3) b1, ?_, ?_, ?_, ?_, ?_⟩
      · intro r hr
        rcases List.mem_cons.mp hr with rfl | hr
        · simp
        · exact b2 r hr
      · simp [yielded, b3, packOf, nonEmpty_flatten]
      · rw [e1, List.filter_append, f1, nonEmpty_append, List.flatten_cons, b4]
      · intro g hg
        rcases List.mem_cons.mp hg with rfl | hg
        · rw [nonEmpty_flatten]; simpa using a2
        · exact b5 g hg
      · rw [e1, List.filter_append, f2]; simpa [raised] using b6
    · have hlt : rest.length < ts.length := by
        rw [e1, List.length_append, a3, List.length_append, List.length_singleton]; omega
      obtain ⟨rs, groups, b1, b2, b3, b4, b5, b6⟩ := ih _ hlt e2 rfl
      have hes : ∀ u ∈ es, c.fits u = true := by
        intro u hu
        rw [empties_flatten a4 u hu]
        simp [PackCfg.fits]
      obtain ⟨f1, f2⟩ := filter_fits hes
      have hbad : c.fits t = false := by simp [PackCfg.fits]; omega
      subst a1
      refine ⟨_ :: rs, groups, .cons ((pack_next s).trans e3) b1, ?_, ?_, ?_, b5, ?_⟩
      · intro r hr
        rcases List.mem_cons.mp hr with rfl | hr
        · simp
        · exact b2 r hr
      · simpa [yielded] using b3
      · rw [e1, a3, List.filter_append, List.filter_append, nonEmpty_append, nonEmpty_append, f1, a4]
        simpa [hbad, nonEmpty] using b4
      · rw [e1, a3, List.filter_append, List.filter_append, f2]
        simp [hbad, raised, b6]
    · subst a1 a2 a3
      simp only [List.append_nil] at e1
      subst e1
      exact ⟨[], [], .nil (.of_next ((pack_next s).trans e3) a5), by simp, rfl, rfl, by simp, rfl⟩

/-! ### With truncation -/

/-- The pack is made of the sequences whose lengths are given, all at most the
maximum. -/
def PackCfg.Lens (c : PackCfg) (p : Pack) : Prop :=
  p.lens.sum = p.toks.length ∧ ∀ k ∈ p.lens, 0 < k ∧ k ≤ c.maxLen

/-- One call with truncation. -/
theorem pack_call_trunc (ht : c.truncate = true) (hmax : 0 < c.maxLen) {n : Nat}
    {ts : List (List Int)} {s : PackSt S.σ} {p : Pack} (hn : ts.flatten.length + ts.length = n)
    (hp : p.toks.length < c.cap) (hl : c.Lens p) (h : Pending S s ts) :
    (∃ s' q ts', c.Lens q ∧ Pending S s' ts' ∧ q.defined = true ∧
      ((q.toks.length = c.cap ∧ packLoop S.next c p s = some (.yield (packOut c q), s') ∧
          (q.toks ++ ts'.flatten = p.toks ++ ts.flatten ∨
            ∃ pre x rest, q.toks = pre ++ [x] ∧ ts'.flatten = x :: rest ∧
              pre ++ x :: rest = p.toks ++ ts.flatten)) ∨
        (q.toks.length < c.cap ∧ packLoop S.next c p s = some (packEnd c q false, s') ∧
          q.toks = p.toks ++ ts.flatten ∧ (pack c S).Ended s'))) ∨
    (ts = [] ∧ p.defined = false ∧
      ∃ s', packLoop S.next c p s = some (.eod, s') ∧ (pack c S).Ended s') := by
  induction n using Nat.strongRecOn generalizing ts s p with
  | _ n ih =>
    cases ts with
    | nil =>
      obtain ⟨i, h1, h2⟩ := pack_last (c := c) (p := p) h
      cases hd : p.defined with
      | true =>
        left
        exact ⟨_, p, [], hl, pending_none ⟨i, .nil _, h1⟩, hd, .inr ⟨hp, h2, by simp, pack_ended h1⟩⟩
      | false =>
        refine .inr ⟨rfl, rfl, _, ?_, pack_ended h1⟩
        rw [h2]
        simp [packEnd, hd]
    | cons t ts =>
      obtain ⟨i, h1, h2⟩ := pack_round (c := c) (p := p) h
      -- going on with a longer pack
      have more : ∀ (q : Pack) (s1 : PackSt S.σ) (us : List (List Int)), q.defined = true →
          packLoop S.next c p s = packLoop S.next c q s1 → q.toks.length < c.cap → c.Lens q →
          Pending S s1 us → us.flatten.length + us.length < n →
          q.toks ++ us.flatten = p.toks ++ (t :: ts).flatten →
          ∃ s' q ts', c.Lens q ∧ Pending S s' ts' ∧ q.defined = true ∧
            ((q.toks.length = c.cap ∧ packLoop S.next c p s = some (.yield (packOut c q), s') ∧
                (q.toks ++ ts'.flatten = p.toks ++ (t :: ts).flatten ∨
                  ∃ pre x rest, q.toks = pre ++ [x] ∧ ts'.flatten = x :: rest ∧
                    pre ++ x :: rest = p.toks ++ (t :: ts).flatten)) ∨
              (q.toks.length < c.cap ∧ packLoop S.next c p s = some (packEnd c q false, s') ∧
                q.toks = p.toks ++ (t :: ts).flatten ∧ (pack c S).Ended s')) := by
        intro q s1 us a1 a2 a3 a4 a5 a6 a7
        rcases ih _ a6 (p := q) rfl a3 a4 a5 with h | ⟨-, h, -⟩
        · rw [a2, ← a7]; exact h
        · rw [a1] at h; cases h
      left
      simp only [List.flatten_cons, List.length_append, List.length_cons] at hn
      by_cases h0 : t = []
      · subst h0
        simp only [packStep, if_pos] at h2
        exact more _ _ ts rfl h2 hp hl (pending_none h1) (by simp only [List.length_nil] at hn; omega) (by simp)
      · have hpos := List.length_pos_iff.mpr h0
        simp only [packStep, if_neg h0, ht, if_true] at h2
        generalize hF : min t.length (min (c.cap - p.toks.length) c.maxLen) = F at h2
        have hlens : ∀ u : List Int, u.length = F →
            c.Lens ⟨true, p.toks ++ u, p.lens ++ [F]⟩ := by
          intro u hu
          refine ⟨?_, ?_⟩
          · simp [hl.1, hu]
          · intro k hk
            rcases List.mem_append.mp hk with hk | hk
            · exact hl.2 k hk
            · simp only [List.mem_singleton] at hk; omega
        have htake : (t.take F).length = F := by rw [List.length_take]; omega
        by_cases hfit : F < t.length
        · simp only [hfit, if_true] at h2
          by_cases hfull : p.toks.length + F = c.cap
          · simp only [hfull, decide_true, if_true] at h2
            refine ⟨_, ⟨true, p.toks ++ t.take F, p.lens ++ [F]⟩, t.drop (F - 1) :: ts,
              hlens _ htake, pending_some h1, rfl,
              .inl ⟨by simp only [List.length_append, htake, hfull], by simpa [packEnd] using h2, .inr ?_⟩⟩
            obtain ⟨G, rfl⟩ : ∃ G, F = G + 1 := ⟨F - 1, by omega⟩
            have hG : G < t.length := by omega
            rw [Nat.add_sub_cancel]
            refine ⟨p.toks ++ t.take G, t[G], t.drop (G + 1) ++ ts.flatten, ?_, ?_, ?_⟩
            · rw [List.append_assoc, List.take_append_getElem hG]
            · rw [List.flatten_cons, List.drop_eq_getElem_cons hG]
              rfl
            · rw [← List.cons_append, ← List.drop_eq_getElem_cons hG, List.flatten_cons, List.append_assoc,
                ← List.append_assoc _ _ ts.flatten, List.take_append_drop]
          · simp only [hfull, decide_false] at h2
            refine more ⟨true, p.toks ++ t.take F, p.lens ++ [F]⟩ ⟨some (t.drop F), i⟩ (t.drop F :: ts)
              rfl (by simpa using h2) (by simp only [List.length_append, htake]; omega) (hlens _ htake)
              (pending_some h1) ?_ ?_
            · simp only [List.flatten_cons, List.length_append, List.length_drop, List.length_cons]
              omega
            · simp only [List.flatten_cons, List.append_assoc]
              rw [← List.append_assoc (t.take F), List.take_append_drop]
        · simp only [hfit, if_false] at h2
          have hFt : F = t.length := by omega
          by_cases hfull : p.toks.length + F = c.cap
          · simp only [hfull, decide_true, if_true] at h2
            refine ⟨_, ⟨true, p.toks ++ t, p.lens ++ [F]⟩, ts, hlens _ hFt.symm, pending_none h1, rfl,
              .inl ⟨by simp only [List.length_append]; omega, by simpa [packEnd] using h2, .inl (by simp)⟩⟩
          · simp only [hfull, decide_false] at h2
            refine more ⟨true, p.toks ++ t, p.lens ++ [F]⟩ ⟨none, i⟩ ts
              rfl (by simpa using h2) (by simp only [List.length_append]; omega) (hlens _ hFt.symm)
              (pending_none h1) ?_ (by simp)
            omega

theorem pack_trunc_yields (ht : c.truncate = true) (hmax : 0 < c.maxLen) (hcap : 1 < c.cap)
    {ts : List (List Int)} {s : PackSt S.σ} (h : Pending S s ts) :
    ∃ full last : List Pack, Glued ((full ++ last).map Pack.toks) ts.flatten ∧ last.length ≤ 1 ∧
      (∀ p ∈ full, c.Lens p ∧ p.toks.length = c.cap) ∧ (∀ p ∈ last, c.Lens p ∧ p.toks.length < c.cap) ∧
      (pack c S).Yields s ((full ++ if c.drop then [] else last).map (packOut c)) := by
  induction hn : ts.flatten.length using Nat.strongRecOn generalizing ts s with
  | _ n ih =>
    subst hn
    rcases pack_call_trunc (p := ⟨false, [], []⟩) ht hmax rfl (by simp only [List.length_nil]; omega)
      ⟨rfl, by simp⟩ h with ⟨s', q, ts', a1, a2, a3, a4⟩ | ⟨rfl, -, s', a1, a2⟩
    · rcases a4 with ⟨b1, b2, b3⟩ | ⟨b1, b2, b3, b4⟩
      · have hlt : ts'.flatten.length < ts.flatten.length := by
          rcases b3 with b3 | ⟨pre, x, rest, d1, d2, d3⟩
          · have := congrArg List.length b3
            simp only [List.length_append, List.nil_append] at this
            omega
          · have := congrArg List.length d3
            rw [d1] at b1
            rw [d2]
            simp only [List.length_append, List.length_cons, List.nil_append, List.length_nil] at this b1 ⊢
            omega
        obtain ⟨full, last, e1, e2, e3, e4, e5⟩ := ih _ hlt a2 rfl
        refine ⟨q :: full, last, ?_, e2, ?_, e4, .cons ((pack_next s).trans b2) e5⟩
        · rcases b3 with b3 | ⟨pre, x, rest, d1, d2, d3⟩
          · simp only [List.nil_append] at b3
            rw [← b3]
            exact .whole e1
          · simp only [List.nil_append] at d3
            rw [d2] at e1
            rw [← d3]
            simp only [List.cons_append, List.map_cons, d1]
            exact .cut e1
        · intro p hp
          rcases List.mem_cons.mp hp with rfl | hp
          · exact ⟨a1, b1⟩
          · exact e3 p hp
      · refine ⟨[], [q], ?_, by simp, by simp, by simpa using ⟨a1, b1⟩, ?_⟩
        · simp only [List.nil_append] at b3
          rw [← b3]
          simpa using Glued.whole (p := q.toks) .nil
        · cases hd : c.drop with
          | true =>
            simp only [packEnd, ht, hd, and_self, if_true] at b2
            simpa using Yields.nil_of ((pack_next s).trans b2) b4
          | false =>
            simp only [packEnd, hd, a3, Bool.false_eq_true, and_false, if_false, if_true] at b2
            simpa using Yields.cons ((pack_next s).trans b2) ⟨_, .nil _, b4⟩
    · exact ⟨[], [], .nil, by simp, by simp, by simp,
        by simpa using Yields.nil_of ((pack_next s).trans a1) a2⟩

end
end Fs2
