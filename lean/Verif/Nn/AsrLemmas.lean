import Verif.Nn.Asr
import Verif.Nn.SpeechLemmas

/-!
# Lemmas about greedy decoding and the loss of speech recognition
-/

namespace Fs2.Asr
open Fs2.Nn Fs2.Dec Fs2.Enc Fs2.Native Fs2.Speech Fs2.Props
open Fs2.Tally (Pair WerState wer)

section
variable {α : Type} [DecidableEq α]

theorem unique_run (a : α) (rest : List α) (h : rest.head? ≠ some a) : ∀ n, uniqueConsecutive (List.replicate (n + 1) a ++ rest) =
    a :: uniqueConsecutive rest
  | 0 => by
    cases rest with
    | nil => rfl
    | cons b l =>
      have : a ≠ b := fun e => h (by rw [e]; rfl)
      simp [uniqueConsecutive, this]
  | n + 1 => by
    rw [List.replicate_succ, List.replicate_succ, List.cons_append, List.cons_append, uniqueConsecutive, if_pos rfl, ← List.cons_append,
      ← List.replicate_succ]
    exact unique_run a rest h n

/-- Runs: a label and how often it is repeated. -/
def unroll (runs : List (α × Nat)) : List α := runs.flatMap fun r => List.replicate r.2 r.1

omit [DecidableEq α] in
theorem unroll_head {runs : List (α × Nat)} (h : ∀ r ∈ runs, 1 ≤ r.2) : (unroll runs).head? = runs.head?.map (·.1) := by
  cases runs with
  | nil => rfl
  | cons r rs =>
    have := h r (by simp)
    obtain ⟨n, hn⟩ : ∃ n, r.2 = n + 1 := ⟨r.2 - 1, by omega⟩
    simp [unroll, hn, List.replicate_succ]

theorem unique_unroll : ∀ {runs : List (α × Nat)}, (∀ r ∈ runs, 1 ≤ r.2) → (runs.map (·.1)).IsChain (· ≠ ·) →
    uniqueConsecutive (unroll runs) = runs.map (·.1)
  | [], _, _ => rfl
  | r :: rs, h, hc => by
    obtain ⟨n, hn⟩ : ∃ n, r.2 = n + 1 := ⟨r.2 - 1, by have := h r (by simp); omega⟩
    have h' : ∀ r ∈ rs, 1 ≤ r.2 := fun x hx => h x (List.mem_cons_of_mem _ hx)
    have ih := unique_unroll h' (by rw [List.map_cons] at hc; exact hc.tail)
    show uniqueConsecutive (List.replicate r.2 r.1 ++ unroll rs) = _
    rw [hn, unique_run, ih, List.map_cons]
    rw [unroll_head h']
    cases rs with
    | nil => simp
    | cons q qs =>
      simp only [List.map_cons, List.isChain_cons_cons] at hc
      simp only [List.head?_cons, Option.map_some, ne_eq, Option.some.injEq]
      exact fun e => hc.1 e.symm

/-- Every path is made of runs. -/
theorem exists_runs : ∀ path : List α, ∃ runs : List (α × Nat), (∀ r ∈ runs, 1 ≤ r.2) ∧ (runs.map (·.1)).IsChain (· ≠ ·) ∧ path = unroll runs
  | [] => ⟨[], by simp, by simp, rfl⟩
  | x :: l => by
    obtain ⟨runs, h1, h2, h3⟩ := exists_runs l
    cases runs with
    | nil => exact ⟨[(x, 1)], by simp, by simp, by rw [h3]; rfl⟩
    | cons r rs =>
      by_cases e : x = r.1
      · refine ⟨(r.1, r.2 + 1) :: rs, ?_, by simpa using h2, ?_⟩
        · intro q hq
          rcases List.mem_cons.1 hq with rfl | hq
          · simp
          · exact h1 q (List.mem_cons_of_mem _ hq)
        · rw [h3, e]
          simp [unroll, List.replicate_succ]
      · refine ⟨(x, 1) :: r :: rs, ?_, ?_, ?_⟩
        · intro q hq
          rcases List.mem_cons.1 hq with rfl | hq
          · simp
          · exact h1 q hq
        · simp only [List.map_cons, List.isChain_cons_cons] at h2 ⊢
          exact ⟨e, h2⟩
        · rw [h3]
          simp [unroll]

/-- Two equal labels in a row need a blank in between. -/
def repeats : List α → Nat
  | a :: b :: l => (if a = b then 1 else 0) + repeats (b :: l)
  | _ => 0

theorem needs_frames (blank : α) : ∀ as : List α, as.IsChain (· ≠ ·) →
    (as.filter (· ≠ blank)).length + repeats (as.filter (· ≠ blank)) ≤ as.length
  | [], _ => by simp [repeats]
  | [a], _ => by
    by_cases h : a = blank <;> simp [h, repeats]
  | a :: b :: l, hc => by
    have hc' := hc
    simp only [List.isChain_cons_cons] at hc'
    have ih := needs_frames blank (b :: l) hc'.2
    by_cases ha : a = blank
    · rw [List.filter_cons_of_neg (by simpa using ha), List.length_cons]
      omega
    · rw [List.filter_cons_of_pos (by simpa using ha)]
      by_cases hb : b = blank
      · have ih' := needs_frames blank l hc'.2.tail
        rw [List.filter_cons_of_neg (by simpa using hb)]
        have : repeats (a :: l.filter (· ≠ blank)) ≤ 1 + repeats (l.filter (· ≠ blank)) := by
          cases l.filter (· ≠ blank) with
          | nil => simp [repeats]
          | cons c m =>
            rw [repeats]
            split <;> omega
        simp only [List.length_cons]
        omega
      · rw [List.filter_cons_of_pos (by simpa using hb)] at ih ⊢
        rw [repeats, if_neg hc'.1]
        simp only [List.length_cons] at ih ⊢
        omega

/-- A shortest path for a target. -/
def shortest (blank : α) : List α → List α
  | a :: b :: l => if a = b then a :: blank :: shortest blank (b :: l) else a :: shortest blank (b :: l)
  | l => l

theorem shortest_spec (blank : α) : ∀ l : List α, blank ∉ l → (shortest blank l).IsChain (· ≠ ·) ∧ (shortest blank l).filter (· ≠ blank) = l ∧
    (shortest blank l).length = l.length + repeats l ∧ (shortest blank l).head? = l.head? ∧ (shortest blank l).getLast? = l.getLast? ∧
    ∀ x ∈ shortest blank l, x ∈ l ∨ x = blank
  | [], _ => by simp [shortest, repeats]
  | [a], h => by
    have : a ≠ blank := fun e => h (by simp [e])
    simp [shortest, repeats, this]
  | a :: b :: l, h => by
    have h' : blank ∉ b :: l := fun e => h (List.mem_cons_of_mem _ e)
    have ha : a ≠ blank := fun e => h (by simp [e])
    have hb : b ≠ blank := fun e => h (by simp [e])
    obtain ⟨h1, h2, h3, h4, h5, h6⟩ := shortest_spec blank (b :: l) h'
    obtain ⟨t, ht⟩ : ∃ t, shortest blank (b :: l) = b :: t := by
      cases hs : shortest blank (b :: l) with
      | nil => rw [hs] at h4; simp at h4
      | cons x t =>
        rw [hs] at h4
        simp only [List.head?_cons, Option.some.injEq] at h4
        exact ⟨t, by rw [h4]⟩
    rw [shortest, repeats]
    by_cases e : a = b
    · rw [if_pos e, if_pos e]
      refine ⟨?_, ?_, ?_, rfl, ?_, ?_⟩
      · rw [ht] at h1 ⊢
        simp only [List.isChain_cons_cons]
        exact ⟨ha, Ne.symm hb, h1⟩
      · rw [List.filter_cons_of_pos (by simpa using ha), List.filter_cons_of_neg (by simp), h2]
      · simp only [List.length_cons, h3]; omega
      · rw [List.getLast?_cons_cons, ht, List.getLast?_cons_cons, ← ht, h5, List.getLast?_cons_cons]
      · intro x hx
        rcases List.mem_cons.1 hx with rfl | hx
        · simp
        · rcases List.mem_cons.1 hx with rfl | hx
          · simp
          · rcases h6 x hx with h | h
            · exact .inl (List.mem_cons_of_mem _ h)
            · exact .inr h
    · rw [if_neg e, if_neg e]
      refine ⟨?_, ?_, ?_, rfl, ?_, ?_⟩
      · rw [ht] at h1 ⊢
        simp only [List.isChain_cons_cons]
        exact ⟨e, h1⟩
      · rw [List.filter_cons_of_pos (by simpa using ha), h2]
      · simp only [List.length_cons, h3]; omega
      · rw [ht, List.getLast?_cons_cons, ← ht, h5, List.getLast?_cons_cons]
      · intro x hx
        rcases List.mem_cons.1 hx with rfl | hx
        · simp
        · rcases h6 x hx with h | h
          · exact .inl (List.mem_cons_of_mem _ h)
          · exact .inr h

end

/-- All paths, each once. -/
theorem mem_paths (vocab : Nat) : ∀ (n : Nat) (p : List Int), p ∈ paths vocab n ↔ p.length = n ∧ ∀ a ∈ p, 0 ≤ a ∧ a < (vocab : Int)
  | 0, p => by simp [paths]; rintro rfl; simp
  | n + 1, p => by
    simp only [paths, List.mem_flatMap, List.mem_range, List.mem_map, mem_paths vocab n]
    constructor
    · rintro ⟨a, ha, q, ⟨h1, h2⟩, rfl⟩
      refine ⟨by simp [h1], ?_⟩
      intro x hx
      rcases List.mem_cons.1 hx with rfl | hx
      · omega
      · exact h2 x hx
    · rintro ⟨h1, h2⟩
      cases p with
      | nil => simp at h1
      | cons x q =>
        have := h2 x (by simp)
        refine ⟨x.toNat, by omega, q, ⟨by simpa using h1, fun a ha => h2 a (List.mem_cons_of_mem _ ha)⟩, ?_⟩
        rw [Int.toNat_of_nonneg this.1]

theorem nodup_paths (vocab : Nat) : ∀ n, (paths vocab n).Nodup
  | 0 => by simp [paths]
  | n + 1 => by
    rw [paths, List.nodup_flatMap]
    refine ⟨fun a _ => (nodup_paths vocab n).map (fun x y h => by simpa using h), ?_⟩
    refine (List.nodup_range (n := vocab)).imp ?_
    intro a b hab x hx hy
    obtain ⟨p, _, rfl⟩ := List.mem_map.1 hx
    obtain ⟨q, _, h⟩ := List.mem_map.1 hy
    simp only [List.cons.injEq, Nat.cast_inj] at h
    exact hab h.1.symm

/-- Rows of a batch, cut to their lengths, are the sequences that it carries. -/
theorem carries_cut {V : Type} {W : Nat} {rows : List (List V)} {l : Layout} {S : List (List V)} (h : Carries W rows l S) :
    (rows.zip l.seqLens).map (fun x => x.1.take x.2.toNat) = S := by
  have hl := h.facts.2.2.2.1
  apply List.ext_getElem
  · simp [h.num, hl]
  · intro i h1 h2
    obtain ⟨row, a1, a2⟩ := h.begins i S[i] (List.getElem?_eq_getElem h2)
    have hi : i < rows.length := by rw [h.num]; exact h2
    rw [List.getElem?_eq_getElem hi, Option.some.injEq] at a1
    simp only [List.getElem_map, List.getElem_zip, hl, a1, Int.toNat_natCast]
    exact a2

theorem others_tensors (l : List (List Int)) : others [] .tensor (l.map .tensor) = .ok (l.map .tensor) := by
  induction l with
  | nil => rfl
  | cons t l ih => simp [others, nodeAt, kind, ih]

theorem collate_tensors (pad : Int) (seqs : List (List Int)) (hne : seqs ≠ []) :
    Collater.call ⟨⟨some pad, 1⟩, []⟩ (.list (seqs.map .tensor)) = .ok (padTensors pad 1 seqs).toData := by
  obtain ⟨t, l, rfl⟩ := List.exists_cons_of_ne_nil hne
  simp only [List.map_cons, Collater.call, collateAt, collateLeaf, kind, others_tensors, collateTensors, Collater.optsFor, List.find?_nil,
    List.map_map]
  congr 2
  congr 1
  simp [tensorOf, Function.comp_def]

theorem padSeqs_eq (pad : Int) (seqs : List (List Int)) (hne : seqs ≠ []) :
    padSeqs pad seqs = (Layout.of [(seqs.length : Int), (longest seqs : Int)] (some (seqs.map fun s => (s.length : Int))) false).map
      fun l => (padSequence pad seqs, l) := by
  unfold padSeqs
  rw [collate_tensors pad seqs hne]
  obtain ⟨t, l, rfl⟩ := List.exists_cons_of_ne_nil hne
  have h1 : (padTensors pad 1 (t :: l)).seqs = padSequence pad (t :: l) := by simp [padTensors]
  have h2 : (padTensors pad 1 (t :: l)).lens = (t :: l).map List.length := by simp [padTensors]
  simp only [Padded.toData, h1, h2, List.map_map]
  have h3 : (padSequence pad (t :: l)).map (tensorOf ∘ Data.tensor) = padSequence pad (t :: l) := by
    simp [tensorOf, Function.comp_def]
  have h4 : (padSequence pad (t :: l)).length = (t :: l).length := by simp [padSequence]
  have h5 : ((padSequence pad (t :: l)).head?.map List.length).getD 0 = longest (t :: l) := by
    have := le_longest (ts := t :: l) (t := t) (by simp)
    simp [padSequence]
    omega
  rw [h3, h4, h5]
  rfl

/-- What `pad_seqs` returns. -/
theorem padSeqs_ok (pad : Int) (seqs : List (List Int)) (hne : seqs ≠ []) (hlen : ∀ s ∈ seqs, s ≠ []) :
    ∃ W rows l, padSeqs pad seqs = some (rows, l) ∧ Carries W rows l seqs ∧
      rows = seqs.map fun s => s ++ List.replicate (W - s.length) pad := by
  have hpos : ∀ s ∈ seqs, 1 ≤ s.length := fun s hs => List.length_pos_iff.2 (hlen s hs)
  obtain ⟨t, ht⟩ := List.exists_mem_of_ne_nil _ hne
  have hW : 1 ≤ longest seqs := Nat.le_trans (hpos t ht) (le_longest ht)
  obtain ⟨l, hl⟩ := (C47_padded [(seqs.length : Int), (longest seqs : Int)] (seqs.map fun s => (s.length : Int))).2 (longest seqs)
    (by simp) (by omega) (by
      intro n hn
      obtain ⟨s, hs, rfl⟩ := List.mem_map.1 hn
      have := hpos s hs
      have := le_longest hs
      omega)
  refine ⟨longest seqs, padSequence pad seqs, l, ?_, ⟨by simp [padSequence], ?_, ?_, hl⟩, rfl⟩
  · rw [padSeqs_eq pad seqs hne, Layout.of]
    simp [hl]
  · intro r s hr
    refine ⟨s ++ List.replicate (longest seqs - s.length) pad, by simp [padSequence, hr], by simp⟩
  · intro row hr
    obtain ⟨s, hs, rfl⟩ := List.mem_map.1 hr
    have := le_longest hs
    simp
    omega

theorem padSeqs_empty (pad : Int) (seqs : List (List Int)) (h : [] ∈ seqs) : padSeqs pad seqs = none := by
  have hne : seqs ≠ [] := by rintro rfl; simp at h
  rw [padSeqs_eq pad seqs hne, Option.map_eq_none_iff]
  cases e : Layout.of [(seqs.length : Int), (longest seqs : Int)] (some (seqs.map fun s => (s.length : Int))) false with
  | none => rfl
  | some l =>
    simp only [Layout.of, Bool.false_eq_true, if_false, List.take_succ_cons, List.take_zero] at e
    obtain ⟨w, _, _, h3, _⟩ := (C47_padded _ _).1 l e
    have := h3 0 (List.mem_map.2 ⟨[], h, by simp⟩)
    omega

end Fs2.Asr
