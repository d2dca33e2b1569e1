import Verif.Pipeline.PackLaws

/-!
# Where the pieces of a pack come from

`PackLaws.lean` tells that the packs glued together are the stream. Here the pieces are followed as well: none of them reaches over
the beginning of a sequence.
-/

namespace Fs2
open Source

/-- The `b`-th element of the sequences written one after another begins one of them. -/
def Begins (ts : List (List Int)) (b : Nat) : Prop := ∃ k < ts.length, b = (ts.take k).flatten.length

theorem begins_nil (b : Nat) : ¬ Begins [] b := fun ⟨k, h, _⟩ => by simp at h

theorem begins_cons (t : List Int) (ts : List (List Int)) (b : Nat) :
    Begins (t :: ts) b ↔ b = 0 ∨ (t.length ≤ b ∧ Begins ts (b - t.length)) := by
  constructor
  · rintro ⟨k, h1, h2⟩
    cases k with
    | zero => left; simpa using h2
    | succ k =>
      right
      rw [List.take_succ_cons, List.flatten_cons, List.length_append] at h2
      exact ⟨by omega, k, by simpa using h1, by omega⟩
  · rintro (rfl | ⟨h1, k, h2, h3⟩)
    · exact ⟨0, by simp, by simp⟩
    · refine ⟨k + 1, by simpa using h2, ?_⟩
      rw [List.take_succ_cons, List.flatten_cons, List.length_append]
      omega

/-- Pieces of the given lengths, the first at `s`, have no element of `B` inside. One that is followed by another ends before an
element of `B` or has the length `L`. -/
def Unbroken (B : Nat → Prop) (L : Nat) : Nat → List Nat → Prop
  | _, [] => True
  | s, n :: ns => (∀ b, s < b → b < s + n → ¬ B b) ∧ (ns = [] ∨ n = L ∨ B (s + n)) ∧ Unbroken B L (s + n) ns

theorem unbroken_append {B : Nat → Prop} {L : Nat} : ∀ {s : Nat} {ns : List Nat} {n : Nat}, Unbroken B L s ns →
    (ns = [] ∨ ns.getLast? = some L ∨ B (s + ns.sum)) →
    (∀ b, s + ns.sum < b → b < s + ns.sum + n → ¬ B b) → Unbroken B L s (ns ++ [n])
  | s, [], n, _, _, h => ⟨by simpa using h, .inl rfl, trivial⟩
  | s, m :: ns, n, h1, h2, h3 => by
    rw [List.sum_cons, ← Nat.add_assoc] at h2 h3
    have h2 := h2.resolve_left (by simp)
    refine ⟨h1.1, .inr ?_, unbroken_append h1.2.2 ?_ h3⟩
    · cases ns with
      | nil => simpa using h2
      | cons k ns => exact h1.2.1.resolve_left (by simp)
    · cases ns with
      | nil => exact .inl rfl
      | cons k ns => rw [List.getLast?_cons_cons] at h2; exact .inr h2

section
variable {S : Source} {c : PackCfg}

/-- One call with truncation and without the remainder: the pack is the beginning of the stream, its pieces do not reach over the
beginning of a sequence, and what is left starts behind it or, if a sequence was cut, at its last element. -/
theorem pack_call_docs (ht : c.truncate = true) (hd : c.drop = true) (hmax : 0 < c.maxLen) {n : Nat} (B : Nat → Prop)
    {ts : List (List Int)} {s : PackSt S.σ} {p : Pack} (hn : ts.flatten.length + ts.length = n)
    (hp : p.toks.length < c.cap) (hl : c.Lens p) (hu : Unbroken B c.maxLen 0 p.lens)
    (hj : p.lens = [] ∨ p.lens.getLast? = some c.maxLen ∨ ts = [] ∨ B p.toks.length)
    (hB : ∀ b, p.toks.length < b → (B b ↔ Begins ts (b - p.toks.length))) (h : Pending S s ts) :
    (∃ s' q ts', c.Lens q ∧ Unbroken B c.maxLen 0 q.lens ∧ Pending S s' ts' ∧ q.toks.length = c.cap ∧
      packLoop S.next c p s = some (.yield (packOut c q), s') ∧ q.toks = (p.toks ++ ts.flatten).take c.cap ∧
      ((ts'.flatten = (p.toks ++ ts.flatten).drop c.cap ∧ ∀ b, B (c.cap + b) ↔ Begins ts' b) ∨
        (ts'.flatten = (p.toks ++ ts.flatten).drop (c.cap - 1) ∧ ∀ b, 0 < b → (B (c.cap - 1 + b) ↔ Begins ts' b)))) ∨
    ((p.toks ++ ts.flatten).length < c.cap ∧ ∃ s', packLoop S.next c p s = some (.eod, s') ∧ (pack c S).Ended s') := by
  induction n using Nat.strongRecOn generalizing ts s p with
  | _ n ih =>
    cases ts with
    | nil =>
      obtain ⟨i, h1, h2⟩ := pack_last (c := c) (p := p) h
      refine .inr ⟨by simpa using hp, _, ?_, pack_ended h1⟩
      rw [h2]
      simp [packEnd, ht, hd]
    | cons t ts =>
      obtain ⟨i, h1, h2⟩ := pack_round (c := c) (p := p) h
      -- going on with a longer pack
      have more : ∀ (q : Pack) (s1 : PackSt S.σ) (us : List (List Int)),
          packLoop S.next c p s = packLoop S.next c q s1 → q.toks.length < c.cap → c.Lens q → Unbroken B c.maxLen 0 q.lens →
          (q.lens = [] ∨ q.lens.getLast? = some c.maxLen ∨ us = [] ∨ B q.toks.length) →
          (∀ b, q.toks.length < b → (B b ↔ Begins us (b - q.toks.length))) →
          Pending S s1 us → us.flatten.length + us.length < n →
          q.toks ++ us.flatten = p.toks ++ (t :: ts).flatten →
          (∃ s' q ts', c.Lens q ∧ Unbroken B c.maxLen 0 q.lens ∧ Pending S s' ts' ∧ q.toks.length = c.cap ∧
            packLoop S.next c p s = some (.yield (packOut c q), s') ∧ q.toks = (p.toks ++ (t :: ts).flatten).take c.cap ∧
            ((ts'.flatten = (p.toks ++ (t :: ts).flatten).drop c.cap ∧ ∀ b, B (c.cap + b) ↔ Begins ts' b) ∨
              (ts'.flatten = (p.toks ++ (t :: ts).flatten).drop (c.cap - 1) ∧ ∀ b, 0 < b → (B (c.cap - 1 + b) ↔ Begins ts' b)))) ∨
          ((p.toks ++ (t :: ts).flatten).length < c.cap ∧ ∃ s', packLoop S.next c p s = some (.eod, s') ∧ (pack c S).Ended s') := by
        intro q s1 us a2 a3 a4 a5 a5' a6 a7 a8 a9
        rw [a2, ← a9]
        exact ih _ a8 (p := q) rfl a3 a4 a5 a5' a6 a7
      simp only [List.flatten_cons, List.length_append, List.length_cons] at hn
      by_cases h0 : t = []
      · subst h0
        simp only [packStep, if_pos] at h2
        refine more _ _ ts h2 hp hl hu (by grind) ?_ (pending_none h1) (by simp only [List.length_nil] at hn; omega) (by simp)
        intro b hb
        rw [hB b hb, begins_cons]
        simp only [List.length_nil, Nat.zero_le, true_and, Nat.sub_zero]
        have : b - p.toks.length ≠ 0 := by dsimp only at hb; omega
        simp [this]
      · have hpos := List.length_pos_iff.mpr h0
        simp only [packStep, if_neg h0, ht, if_true] at h2
        generalize hF : min t.length (min (c.cap - p.toks.length) c.maxLen) = F at h2
        have hlens : ∀ u : List Int, u.length = F →
            c.Lens ⟨true, p.toks ++ u, p.lens ++ [F]⟩ := by
          intro u hu
          refine ⟨?_, ?_⟩
          · simp [hl.1, hu]
          · intro k hk
            rcases List.mem_append.mp hk with hk | hk
            · exact hl.2 k hk
            · simp only [List.mem_singleton] at hk; omega
        have hF1 : 0 < F := by omega
        have hF2 : F ≤ t.length := by omega
        have hub : Unbroken B c.maxLen 0 (p.lens ++ [F]) := by
          have hj' : p.lens = [] ∨ p.lens.getLast? = some c.maxLen ∨ B (0 + p.lens.sum) := by
            rw [hl.1, Nat.zero_add]
            rcases hj with h | h | h | h
            · exact .inl h
            · exact .inr (.inl h)
            · cases h
            · exact .inr (.inr h)
          apply unbroken_append hu hj'
          intro b h3 h4 hb
          rw [hl.1, Nat.zero_add] at h3 h4
          rw [hB b h3, begins_cons] at hb
          omega
        have hBt : ∀ b, p.toks.length < b → (B b ↔ t.length ≤ b - p.toks.length ∧ Begins ts (b - p.toks.length - t.length)) := by
          intro b hb
          rw [hB b hb, begins_cons]
          have : b - p.toks.length ≠ 0 := by omega
          simp [this]
        have htake : (t.take F).length = F := by rw [List.length_take]; omega
        by_cases hfit : F < t.length
        · simp only [hfit, if_true] at h2
          by_cases hfull : p.toks.length + F = c.cap
          · simp only [hfull, decide_true, if_true] at h2
            refine .inl ⟨_, ⟨true, p.toks ++ t.take F, p.lens ++ [F]⟩, t.drop (F - 1) :: ts,
              hlens _ htake, hub, pending_some h1, by simp only [List.length_append, htake, hfull],
              by simpa [packEnd] using h2, ?_, .inr ⟨?_, ?_⟩⟩
            · rw [List.flatten_cons, ← hfull, List.take_length_add_append, List.take_append_of_le_length hF2]
            · rw [List.flatten_cons, List.flatten_cons, ← hfull, Nat.add_sub_assoc hF1, List.drop_length_add_append,
                List.drop_append_of_le_length (by omega)]
            · intro b hb
              rw [hBt _ (by omega), begins_cons, List.length_drop]
              have e : c.cap - 1 + b - p.toks.length - t.length = b - (t.length - (F - 1)) := by omega
              rw [e]
              constructor
              · rintro ⟨x, y⟩; exact .inr ⟨by omega, y⟩
              · rintro (x | ⟨x, y⟩)
                · omega
                · exact ⟨by omega, y⟩
          · simp only [hfull, decide_false] at h2
            refine more ⟨true, p.toks ++ t.take F, p.lens ++ [F]⟩ ⟨some (t.drop F), i⟩ (t.drop F :: ts)
              (by simpa using h2) (by simp only [List.length_append, htake]; omega) (hlens _ htake) hub
              (.inr (.inl (by rw [List.getLast?_append]; simp; omega))) ?_ (pending_some h1) ?_ ?_
            · intro b hb
              simp only [List.length_append, htake] at hb ⊢
              rw [hBt _ (by omega), begins_cons, List.length_drop]
              have e : b - p.toks.length - t.length = b - (p.toks.length + F) - (t.length - F) := by omega
              rw [e]
              constructor
              · rintro ⟨x, y⟩; exact .inr ⟨by omega, y⟩
              · rintro (x | ⟨x, y⟩)
                · omega
                · exact ⟨by omega, y⟩
            · simp only [List.flatten_cons, List.length_append, List.length_drop, List.length_cons]
              omega
            · simp only [List.flatten_cons, List.append_assoc]
              rw [← List.append_assoc (t.take F), List.take_append_drop]
        · simp only [hfit, if_false] at h2
          have hFt : F = t.length := by omega
          by_cases hfull : p.toks.length + F = c.cap
          · simp only [hfull, decide_true, if_true] at h2
            refine .inl ⟨_, ⟨true, p.toks ++ t, p.lens ++ [F]⟩, ts, hlens _ hFt.symm, hub, pending_none h1,
              by simp only [List.length_append]; omega, by simpa [packEnd] using h2, ?_, .inl ⟨?_, ?_⟩⟩
            · rw [List.flatten_cons, ← List.append_assoc, List.take_left' (by simp only [List.length_append]; omega)]
            · rw [List.flatten_cons, ← List.append_assoc, List.drop_left' (by simp only [List.length_append]; omega)]
            · intro b
              rw [hBt _ (by omega)]
              have e : c.cap + b - p.toks.length - t.length = b := by omega
              rw [e]
              exact ⟨fun x => x.2, fun x => ⟨by omega, x⟩⟩
          · simp only [hfull, decide_false] at h2
            refine more ⟨true, p.toks ++ t, p.lens ++ [F]⟩ ⟨none, i⟩ ts
              (by simpa using h2) (by simp only [List.length_append]; omega) (hlens _ hFt.symm) hub
              (.inr (.inr ?_)) ?_ (pending_none h1) ?_ (by simp)
            · cases ts with
              | nil => exact .inl rfl
              | cons u ts =>
                refine .inr ?_
                simp only [List.length_append]
                rw [hBt _ (by omega), begins_cons]
                exact ⟨by omega, .inl (by omega)⟩
            · intro b hb
              simp only [List.length_append] at hb ⊢
              rw [hBt _ (by omega)]
              have e : b - p.toks.length - t.length = b - (p.toks.length + t.length) := by omega
              rw [e]
              exact ⟨fun x => x.2, fun x => ⟨by omega, x⟩⟩
            omega

/-- Packs that follow a stream: where they begin, and that their pieces lie within the sequences. -/
inductive Follows (c : PackCfg) (B : Nat → Prop) (xs : List Int) : Nat → List Pack → Prop
  | done {a : Nat} (h : xs.length < a + c.cap) : Follows c B xs a []
  | whole {a : Nat} {q : Pack} {qs : List Pack} (hl : c.Lens q) (hc : q.toks.length = c.cap) (hq : q.toks = (xs.drop a).take c.cap)
      (hu : Unbroken B c.maxLen a q.lens) (hb : a + c.cap < xs.length → B (a + c.cap)) (h : Follows c B xs (a + c.cap) qs) : Follows c B xs a (q :: qs)
  | cut {a : Nat} {q : Pack} {qs : List Pack} (hl : c.Lens q) (hc : q.toks.length = c.cap) (hq : q.toks = (xs.drop a).take c.cap)
      (hu : Unbroken B c.maxLen a q.lens) (h : Follows c B xs (a + (c.cap - 1)) qs) : Follows c B xs a (q :: qs)

theorem pack_follows_aux (ht : c.truncate = true) (hd : c.drop = true) (hmax : 0 < c.maxLen) (hcap : 1 < c.cap) (B : Nat → Prop)
    (xs : List Int) {ts : List (List Int)} {s : PackSt S.σ} {a : Nat} (hts : ts.flatten = xs.drop a)
    (hB : ∀ b, 0 < b → (B (a + b) ↔ Begins ts b)) (h : Pending S s ts) :
    ∃ packs : List Pack, Follows c B xs a packs ∧ (pack c S).Yields s (packs.map (packOut c)) := by
  induction hn : ts.flatten.length using Nat.strongRecOn generalizing ts s a with
  | _ n ih =>
    subst hn
    rcases pack_call_docs (p := ⟨false, [], []⟩) ht hd hmax (fun b => B (a + b)) rfl (by simp only [List.length_nil]; omega)
      ⟨rfl, by simp⟩ trivial (.inl rfl) (by simpa using hB) h with ⟨s', q, ts', a1, a2, a3, a4, a5, a6, a7⟩ | ⟨a1, s', a2, a3⟩
    · rw [List.nil_append, hts] at a6 a7
      rw [List.drop_drop, List.drop_drop] at a7
      have hu : Unbroken B c.maxLen a q.lens := by
        have : Unbroken (fun b => B (a + b)) c.maxLen 0 q.lens := a2
        clear a1 a3 a4 a5 a6 a7 ih
        have key : ∀ (s : Nat) (ns : List Nat), Unbroken (fun b => B (a + b)) c.maxLen s ns → Unbroken B c.maxLen (a + s) ns := by
          intro s ns
          induction ns generalizing s with
          | nil => intro; trivial
          | cons n ns ihn =>
            rintro ⟨x, z, y⟩
            refine ⟨fun b h3 h4 => ?_, by rw [Nat.add_assoc]; exact z, by rw [Nat.add_assoc]; exact ihn _ y⟩
            have := x (b - a) (by omega) (by omega)
            replace this : ¬ B (a + (b - a)) := this
            rwa [show a + (b - a) = b by omega] at this
        exact key 0 _ this
      have hlen : c.cap ≤ (xs.drop a).length := by
        have := congrArg List.length a6
        rw [List.length_take] at this
        omega
      rcases a7 with ⟨b1, b2⟩ | ⟨b1, b2⟩
      · obtain ⟨packs, e1, e2⟩ := ih ts'.flatten.length (by
            rw [b1, hts]
            simp only [List.length_drop] at hlen ⊢
            omega) b1 (fun b _ => by rw [Nat.add_assoc]; exact b2 b) a3 rfl
        refine ⟨q :: packs, .whole a1 a4 a6 hu ?_ e1, .cons ((pack_next s).trans a5) e2⟩
        intro hlt
        have := (b2 0).2 (by
          cases ts' with
          | nil =>
            have := congrArg List.length b1
            simp only [List.flatten_nil, List.length_nil, List.length_drop] at this
            omega
          | cons t ts' => exact (begins_cons _ _ _).2 (.inl rfl))
        simpa using this
      · obtain ⟨packs, e1, e2⟩ := ih ts'.flatten.length (by
            rw [b1, hts]
            simp only [List.length_drop] at hlen ⊢
            omega) b1 (fun b hb => by rw [Nat.add_assoc]; exact b2 b hb) a3 rfl
        exact ⟨q :: packs, .cut a1 a4 a6 hu e1, .cons ((pack_next s).trans a5) e2⟩
    · refine ⟨[], .done ?_, .nil_of ((pack_next s).trans a2) a3⟩
      rw [List.nil_append, hts, List.length_drop] at a1
      omega

/-- All packs of a run. -/
theorem pack_follows (ht : c.truncate = true) (hd : c.drop = true) (hmax : 0 < c.maxLen) (hcap : 1 < c.cap)
    {ts : List (List Int)} {i : S.σ} (h : S.Yields i (ts.map .tensor)) :
    ∃ packs : List Pack, Follows c (Begins ts) ts.flatten 0 packs ∧
      (pack c S).Yields (⟨none, i⟩ : PackSt S.σ) (packs.map (packOut c)) :=
  pack_follows_aux ht hd hmax hcap _ _ (by simp) (fun b _ => by rw [Nat.zero_add]) (pending_none h)

end
end Fs2
