import Verif.Nn.AsrLemmas
import Verif.Props.Encoder
import Verif.Props.CrossEntropy

/-!
# C103: Speech recognition: the loss and the error rates of a batch are those of its recordings

`Alone m.forward s t` of `Verif/Nn/SpeechSpec.lean` says that the model gives the logits `t` for the recording `s` alone (C98).
`Carries W rows l S` says that the batch `rows` with layout `l` holds the sequences `S`.
-/

namespace Fs2.Props
open Fs2.Nn Fs2.Dec Fs2.Enc Fs2.Speech Fs2.Asr
open Fs2.Tally (Pair WerState wer)

/-- A path, one label per frame, spells out labels: it consists of runs of the same label, and the labels are those of the runs that
are not blank. -/
def SpellsOut {α : Type} [DecidableEq α] (blank : α) (path labels : List α) : Prop :=
  ∃ runs : List (α × Nat), (∀ r ∈ runs, 1 ≤ r.2) ∧ (runs.map (·.1)).IsChain (· ≠ ·) ∧
    path = runs.flatMap (fun r => List.replicate r.2 r.1) ∧ labels = (runs.map (·.1)).filter (· ≠ blank)

/-- **C103 (decoding).** `unique_consecutive` and the removal of blanks give the labels that a path spells out; there is exactly one
such sequence. -/
theorem C103_decode {α : Type} [DecidableEq α] (blank : α) (path labels : List α) :
    SpellsOut blank path labels ↔ collapse blank path = labels := by
  constructor
  · rintro ⟨runs, h1, h2, rfl, rfl⟩
    have := unique_unroll h1 h2
    rw [unroll] at this
    rw [collapse, this]
  · rintro rfl
    obtain ⟨runs, h1, h2, h3⟩ := exists_runs path
    refine ⟨runs, h1, h2, h3, ?_⟩
    rw [h3, collapse, unique_unroll h1 h2]

/-- The labels that the most probable label of each frame spell out. -/
def Greedy (vocab : Nat) (blank : Int) (logits : List Vec) (labels : List Int) : Prop :=
  ∃ path : List Nat, path.length = logits.length ∧
    (∀ (k : Nat) v a, logits[k]? = some v → path[k]? = some a → a < vocab ∧ ∀ b < vocab, v b ≤ v a) ∧
    SpellsOut blank (path.map fun (a : Nat) => (a : Int)) labels

/-- `argmax` finds a largest entry, and the decoder skips padding. -/
structure GoodCalculator (c : Calculator) (vocab : Nat) : Prop where
  argmax : ∀ v, c.argmax v < vocab ∧ ∀ b < vocab, v b ≤ v (c.argmax v)
  decode : ∀ ts k, c.decode (ts ++ List.replicate k c.pad) = c.decode ts

/-- All frames are blank. -/
def Silent (c : Calculator) (logits : List Vec) : Prop := ∀ v ∈ logits, (c.argmax v : Int) = c.blank

/-- The labels that the calculator finds. -/
def labelsOf (c : Calculator) (t : List Vec) : List Int := collapse c.blank (t.map fun v => (c.argmax v : Int))

theorem labels_greedy {c : Calculator} {vocab : Nat} (hc : GoodCalculator c vocab) (t : List Vec) : Greedy vocab c.blank t (labelsOf c t) := by
  refine ⟨t.map c.argmax, by simp, ?_, ?_⟩
  · intro k v a h1 h2
    rw [List.getElem?_map, h1] at h2
    simp only [Option.map_some, Option.some.injEq] at h2
    subst h2
    exact hc.argmax v
  · rw [C103_decode, List.map_map]
    rfl

theorem labels_silent {c : Calculator} {t : List Vec} : labelsOf c t = [] ↔ Silent c t := by
  obtain ⟨runs, h1, h2, h3⟩ := exists_runs (t.map fun v => (c.argmax v : Int))
  rw [labelsOf, h3, collapse, unique_unroll h1 h2]
  have hmem : ∀ a, a ∈ runs.map (·.1) ↔ a ∈ t.map fun v => (c.argmax v : Int) := by
    intro a
    rw [h3, unroll]
    simp only [List.mem_map, List.mem_flatMap, List.mem_replicate]
    constructor
    · rintro ⟨r, hr, rfl⟩
      exact ⟨r, hr, by have := h1 r hr; omega, rfl⟩
    · rintro ⟨r, hr, _, rfl⟩
      exact ⟨r, hr, rfl⟩
  simp only [List.filter_eq_nil_iff, Silent]
  constructor
  · intro h v hv
    have := h _ ((hmem _).2 (List.mem_map.2 ⟨v, hv, rfl⟩))
    simpa using this
  · intro h a ha
    obtain ⟨v, hv, rfl⟩ := List.mem_map.1 ((hmem a).1 ha)
    simp [h v hv]

private theorem hypotheses_eq (c : Calculator) {W : Nat} {rows : List (List Vec)} {l : Layout} {T : List (List Vec)} (h : Carries W rows l T) :
    c.hypotheses rows l = padSeqs c.pad (T.map (labelsOf c)) := by
  unfold Calculator.hypotheses
  have := carries_cut h
  have h2 := congrArg (List.map (labelsOf c)) this
  rw [List.map_map] at h2
  rw [← h2]
  rfl

private theorem wer_sums {W A : Type} (dW : List W → List W → Nat) (dA : List A → List A → Nat) (ps : List (Pair W A)) (s : WerState) :
    (wer dW dA).update s ps = ⟨s.unitErr + (ps.map fun p => dA p.hypUnits p.refUnits).sum, s.unitLen + (ps.map fun p => p.refUnits.length).sum,
      s.wordErr + (ps.map fun p => dW p.hypWords p.refWords).sum, s.wordLen + (ps.map fun p => p.refWords.length).sum⟩ := by
  induction ps generalizing s with
  | nil => simp [wer]
  | cons p ps ih =>
    have : (wer dW dA).update s (p :: ps) = (wer dW dA).update ⟨s.unitErr + dA p.hypUnits p.refUnits, s.unitLen + p.refUnits.length,
      s.wordErr + dW p.hypWords p.refWords, s.wordLen + p.refWords.length⟩ ps := rfl
    rw [this, ih]
    simp [Nat.add_assoc]

/-- **C103 (error rates).** With every batch, however padded, the metric counts for each recording the errors of the labels that its
own most probable path spells out, against the tokens of its own reference; and the errors of the words in the same way. The two files
get the texts of all references and hypotheses, in order. This holds if no recording is silent, see `C103_all_blank`. -/
theorem C103_error_rates_partial (c : Calculator) (vocab : Nat) (hc : GoodCalculator c vocab) :
    ∃ greedy : List Vec → List Int, (∀ t, Greedy vocab c.blank t (greedy t)) ∧
      ∀ (s : Progress) {W Wt : Nat} {rows : List (List Vec)} {l lt : Layout} (P : List (List Vec × List Int)),
        P ≠ [] → Carries W rows l (P.map (·.1)) →
        Carries Wt (P.map fun p => p.2 ++ List.replicate (Wt - p.2.length) c.pad) lt (P.map (·.2)) →
        (∀ p ∈ P, ¬ Silent c p.1) →
        c.compute s (P.map fun p => p.2 ++ List.replicate (Wt - p.2.length) c.pad) lt rows l = some
          ⟨⟨s.wer.unitErr + (P.map fun p => c.unitDist (greedy p.1) p.2).sum, s.wer.unitLen + (P.map fun p => p.2.length).sum,
            s.wer.wordErr + (P.map fun p => c.wordDist (c.split (c.decode (greedy p.1))) (c.split (c.decode p.2))).sum,
            s.wer.wordLen + (P.map fun p => (c.split (c.decode p.2)).length).sum⟩,
           if c.record then s.refs ++ P.map (fun p => c.decode p.2) else s.refs,
           if c.record then s.hyps ++ P.map (fun p => c.decode (greedy p.1)) else s.hyps⟩ := by
  refine ⟨labelsOf c, labels_greedy hc, ?_⟩
  intro s W Wt rows l lt P hne h1 h2 h3
  obtain ⟨Wh, hrows, lh, e1, e2, e3⟩ := padSeqs_ok c.pad ((P.map (·.1)).map (labelsOf c)) (by simpa using hne) (by
    intro x hx
    simp only [List.mem_map] at hx
    obtain ⟨t, ⟨p, hp, rfl⟩, rfl⟩ := hx
    intro h
    exact h3 p hp (labels_silent.1 h))
  have hpk := h2.facts.2.2.1
  have hpk' := e2.facts.2.2.1
  have hr : (P.map fun p => p.2 ++ List.replicate (Wt - p.2.length) c.pad).map c.decode = P.map fun p => c.decode p.2 := by
    simp [List.map_map, Function.comp_def, hc.decode]
  have hh : hrows.map c.decode = P.map fun p => c.decode (labelsOf c p.1) := by
    rw [e3]
    simp [List.map_map, Function.comp_def, hc.decode]
  have hpairs : c.pairs (P.map fun p => c.decode p.2) (P.map fun p => p.2 ++ List.replicate (Wt - p.2.length) c.pad) lt.seqLens
      (P.map fun p => c.decode (labelsOf c p.1)) hrows lh.seqLens =
      P.map fun p => ⟨c.split (c.decode p.2), c.split (c.decode (labelsOf c p.1)), p.2, labelsOf c p.1⟩ := by
    rw [h2.facts.2.2.2.1, e2.facts.2.2.2.1, e3]
    apply List.ext_getElem
    · simp [Calculator.pairs]
    · intro i a1 a2
      simp [Calculator.pairs]
  unfold Calculator.compute
  rw [hypotheses_eq c h1, e1]
  simp only [Option.bind_some, hpk, hpk', Bool.false_eq_true, or_self, if_false, hr, hh, hpairs, wer_sums, List.map_map, Function.comp_def]

/-- **C103, violation.** A recording whose most probable path is all blank, as at the beginning of a training, does not count as an
empty hypothesis: `pad_seqs` raises `ValueError`, for the whole batch. -/
theorem C103_all_blank (c : Calculator) (s : Progress) {W : Nat} {rows : List (List Vec)} {l : Layout} (T : List (List Vec))
    (h : Carries W rows l T) (t : List Vec) (ht : t ∈ T) (hs : Silent c t) (refs : List (List Int)) (lt : Layout) :
    c.compute s refs lt rows l = none := by
  unfold Calculator.compute
  rw [hypotheses_eq c h, padSeqs_empty]
  · rfl
  · exact List.mem_map.2 ⟨t, ht, labels_silent.2 hs⟩

/-- **C103 (report).** Error rates in percent are reported if both are at least one. -/
theorem C103_report_partial (dW : List String → List String → Nat) (dA : List Int → List Int → Nat) (s : WerState) (hu : 0 < s.unitLen)
    (hw : 0 < s.wordLen) (h1 : s.unitLen ≤ 100 * s.unitErr) (h2 : s.wordLen ≤ 100 * s.wordErr) :
    processValues (some ((wer dW dA).compute s)) =
      [("uer", 100 * (s.unitErr : Rat) / s.unitLen), ("wer", 100 * (s.wordErr : Rat) / s.wordLen)] := by
  have a1 : (1 : Rat) ≤ (s.unitErr : Rat) * 100 / s.unitLen := by
    rw [le_div_iff₀ (by exact_mod_cast hu)]
    have : ((s.unitLen : Nat) : Rat) ≤ ((100 * s.unitErr : Nat) : Rat) := by exact_mod_cast h1
    push_cast at this
    linarith
  have a2 : (1 : Rat) ≤ (s.wordErr : Rat) * 100 / s.wordLen := by
    rw [le_div_iff₀ (by exact_mod_cast hw)]
    have : ((s.wordLen : Nat) : Rat) ≤ ((100 * s.wordErr : Nat) : Rat) := by exact_mod_cast h2
    push_cast at this
    linarith
  have e : (wer dW dA).compute s = ((s.unitErr : Rat) * 100 / s.unitLen, (s.wordErr : Rat) * 100 / s.wordLen) :=
    if_pos ⟨by omega, by omega⟩
  simp only [e, processValues, ge_iff_le, a1, a2, and_self, if_true]
  rw [mul_comm, mul_comm (s.wordErr : Rat)]

/-- **C103, violation.** A model that is good enough is not evaluated: below one percent of word or unit errors, neither of the rates
is reported. -/
theorem C103_good_models (dW : List String → List String → Nat) (dA : List Int → List Int → Nat) (s : WerState) (hu : 0 < s.unitLen)
    (hw : 0 < s.wordLen) (h : 100 * s.unitErr < s.unitLen ∨ 100 * s.wordErr < s.wordLen) :
    processValues (some ((wer dW dA).compute s)) = [] := by
  have e : (wer dW dA).compute s = ((s.unitErr : Rat) * 100 / s.unitLen, (s.wordErr : Rat) * 100 / s.wordLen) :=
    if_pos ⟨by omega, by omega⟩
  simp only [e, processValues]
  rw [if_neg]
  rintro ⟨h1, h2⟩
  rcases h with h | h
  · rw [ge_iff_le, le_div_iff₀ (by exact_mod_cast hu)] at h1
    have : ((100 * s.unitErr : Nat) : Rat) < ((s.unitLen : Nat) : Rat) := by exact_mod_cast h
    push_cast at this
    linarith
  · rw [ge_iff_le, le_div_iff₀ (by exact_mod_cast hw)] at h2
    have : ((100 * s.wordErr : Nat) : Rat) < ((s.wordLen : Nat) : Rat) := by exact_mod_cast h
    push_cast at this
    linarith

/-! ## The loss -/

/-- The probability of a path: the product of the probabilities of its labels, one per frame. -/
noncomputable def pathProb (vocab : Nat) (logits : List Vec) (path : List Int) : ℝ :=
  ((logits.zip path).map fun x => softmaxAt ((List.range vocab).map x.1) x.2.toNat).prod

/-- The loss of a recording with the given logits: minus the logarithm of the probability of all paths that spell out the target,
where label 0 is blank; and zero if there is no such path. -/
def IsCtcLoss (vocab : Nat) (logits : List Vec) (target : List Int) (loss : ℝ) : Prop :=
  ∃ L : List (List Int), L.Nodup ∧
    (∀ p, p ∈ L ↔ p.length = logits.length ∧ (∀ a ∈ p, 0 ≤ a ∧ a < (vocab : Int)) ∧ SpellsOut 0 p target) ∧
    loss = if L = [] then 0 else - Real.log ((L.map (pathProb vocab logits)).sum)

/-- How many labels equal the one before; between them a path needs a blank. -/
def doubled (target : List Int) : Nat := (target.zip target.tail).countP fun x => x.1 = x.2

private theorem doubled_eq : ∀ l : List Int, doubled l = repeats l
  | [] => rfl
  | [a] => rfl
  | a :: b :: l => by
    have := doubled_eq (b :: l)
    simp only [doubled, List.tail_cons] at this
    simp only [doubled, List.tail_cons, List.zip_cons_cons, List.countP_cons, repeats, this, decide_eq_true_eq]
    omega

private theorem exp_row (row : List ℝ) (v : Nat) (hv : v < row.length) :
    Real.exp (((Loss.logSoftmax row)[v]?).getD 0) = softmaxAt row v := by
  have hne : row ≠ [] := by rintro rfl; simp at hv
  have hpos : 0 < (row.map Real.exp).sum := by
    apply List.sum_pos
    · simp only [List.mem_map]
      rintro _ ⟨x, _, rfl⟩
      exact Real.exp_pos x
    · simpa using hne
  simp only [Loss.logSoftmax, List.getElem?_map, List.getElem?_eq_getElem hv, Option.map_some, Option.getD_some, softmaxAt,
    List.getD_eq_getElem?_getD, Real.exp_sub, Real.exp_log hpos]

private theorem exp_score (vocab : Nat) : ∀ (t : List Vec) (p : List Int), (∀ a ∈ p, 0 ≤ a ∧ a < (vocab : Int)) →
    Real.exp (pathScore (t.map fun v => Loss.logSoftmax ((List.range vocab).map v)) p) = pathProb vocab t p
  | [], p, _ => by simp [pathScore, pathProb]
  | v :: t, [], _ => by simp [pathScore, pathProb]
  | v :: t, a :: p, h => by
    have ih := exp_score vocab t p (fun a ha => h a (by simp [ha]))
    have ha := h a (by simp)
    have := exp_row ((List.range vocab).map v) a.toNat (by simp; omega)
    simp only [pathScore, pathProb] at ih ⊢
    rw [List.map_cons, List.zipWith_cons_cons, List.sum_cons, Real.exp_add, ih, this, List.zip_cons_cons, List.map_cons, List.prod_cons]

private theorem ctcOne_spec (vocab : Nat) (t : List Vec) (target : List Int) :
    IsCtcLoss vocab t target (ctcOne vocab 0 (t.map fun v => Loss.logSoftmax ((List.range vocab).map v)) target) := by
  refine ⟨(paths vocab t.length).filter fun p => collapse 0 p = target, (nodup_paths vocab _).filter _, ?_, ?_⟩
  · intro p
    simp only [List.mem_filter, mem_paths, C103_decode, decide_eq_true_eq, and_assoc]
  · simp only [ctcOne, List.length_map]
    split
    · rfl
    · congr 3
      apply List.map_congr_left
      intro p hp
      exact exp_score vocab t p ((mem_paths vocab _ p).1 (List.mem_filter.1 hp).1).2

private theorem sum_mul_left (l : List (List Int)) (c : ℝ) (f : List Int → ℝ) : (l.map fun p => c * f p).sum = c * (l.map f).sum := by
  induction l with
  | nil => simp
  | cons a l ih => simp [ih, mul_add]

/-- The probabilities of all paths sum to one. -/
private theorem paths_one (vocab : Nat) (hv : 2 ≤ vocab) : ∀ t : List Vec, ((paths vocab t.length).map (pathProb vocab t)).sum = 1
  | [] => by simp [paths, pathProb]
  | v :: t => by
    have ih := paths_one vocab hv t
    have hone := (C94_nonneg vocab 0 hv le_rfl zero_le_one ⟨(List.range vocab).map v, 0, true⟩ (by simp) (by simp [InVocab]; omega)).1
    rw [List.length_cons, paths, List.map_flatMap]
    have h1 : ∀ a : Nat, (((paths vocab t.length).map ((a : Int) :: ·)).map (pathProb vocab (v :: t))).sum =
        softmaxAt ((List.range vocab).map v) a := by
      intro a
      rw [List.map_map]
      have : (pathProb vocab (v :: t) ∘ ((a : Int) :: ·)) = fun p => softmaxAt ((List.range vocab).map v) a * pathProb vocab t p := by
        funext p
        simp [pathProb]
      rw [this, sum_mul_left, ih, mul_one]
    have h2 : ∀ l : List Nat, (l.flatMap fun (a : Nat) => ((paths vocab t.length).map ((a : Int) :: ·)).map (pathProb vocab (v :: t))).sum =
        (l.map (softmaxAt ((List.range vocab).map v))).sum := by
      intro l
      induction l with
      | nil => simp
      | cons a l ih2 => rw [List.flatMap_cons, List.sum_append, h1, ih2, List.map_cons, List.sum_cons]
    rw [h2]
    exact hone

private theorem pathProb_pos (vocab : Nat) (hv : 0 < vocab) : ∀ (t : List Vec) (p : List Int), 0 < pathProb vocab t p
  | [], p => by simp [pathProb]
  | v :: t, [] => by simp [pathProb]
  | v :: t, a :: p => by
    have ih := pathProb_pos vocab hv t p
    have : 0 < softmaxAt ((List.range vocab).map v) a.toNat := by
      refine div_pos (Real.exp_pos _) (List.sum_pos _ ?_ ?_)
      · simp only [List.mem_map]
        rintro _ ⟨x, _, rfl⟩
        exact Real.exp_pos x
      · simp; omega
    simp only [pathProb, List.zip_cons_cons, List.map_cons, List.prod_cons] at ih ⊢
    exact mul_pos this ih

/-- **C103 (which targets fit).** A path of `n` frames can spell out a target if and only if there is a frame for each label, and one
for a blank between any two equal labels that follow each other. -/
theorem C103_fits (vocab n : Nat) (target : List Int) (hv : 0 < vocab) (ht : ∀ a ∈ target, 0 < a ∧ a < (vocab : Int)) :
    (∃ p : List Int, p.length = n ∧ (∀ a ∈ p, 0 ≤ a ∧ a < (vocab : Int)) ∧ SpellsOut 0 p target) ↔
      target.length + doubled target ≤ n := by
  rw [doubled_eq]
  constructor
  · rintro ⟨p, rfl, _, runs, h1, h2, rfl, rfl⟩
    have h3 := needs_frames (0 : Int) _ h2
    have h4 : ∀ l : List (Int × Nat), (∀ r ∈ l, 1 ≤ r.2) → l.length ≤ (l.flatMap fun r => List.replicate r.2 r.1).length := by
      intro l
      induction l with
      | nil => simp
      | cons a l ih =>
        intro h
        have := h a (by simp)
        have := ih fun r hr => h r (by simp [hr])
        simp only [List.flatMap_cons, List.length_append, List.length_replicate, List.length_cons]
        omega
    have := h4 runs h1
    simp only [List.length_map] at h3
    omega
  · intro h
    have hb : (0 : Int) ∉ target := fun h0 => by have := (ht 0 h0).1; omega
    obtain ⟨a1, a2, a3, _, a5, a6⟩ := shortest_spec (0 : Int) target hb
    have hrep : ∀ l : List Int, (l.map fun a => (a, 1)).flatMap (fun r : Int × Nat => List.replicate r.2 r.1) = l := by
      intro l
      induction l with
      | nil => rfl
      | cons a l ih => simp only [List.map_cons, List.flatMap_cons, ih]; rfl
    refine ⟨shortest 0 target ++ List.replicate (n - (target.length + repeats target)) 0, by simp [a3]; omega, ?_, ?_⟩
    · intro a ha
      rcases List.mem_append.1 ha with ha | ha
      · rcases a6 a ha with ha | rfl
        · have := ht a ha
          omega
        · omega
      · rw [(List.mem_replicate.1 ha).2]
        omega
    · by_cases hn : n - (target.length + repeats target) = 0
      · refine ⟨(shortest 0 target).map fun a => (a, 1), by simp, by simpa [Function.comp_def] using a1, ?_, ?_⟩
        · rw [hrep, hn]
          simp
        · simpa [Function.comp_def] using a2.symm
      · refine ⟨((shortest 0 target).map fun a => (a, 1)) ++ [(0, n - (target.length + repeats target))], ?_, ?_, ?_, ?_⟩
        · intro r hr
          rcases List.mem_append.1 hr with hr | hr
          · obtain ⟨a, _, rfl⟩ := List.mem_map.1 hr
            exact le_rfl
          · rw [List.mem_singleton.1 hr]
            simp only
            omega
        · simp only [List.map_append, List.map_map, Function.comp_def, List.map_id', List.map_cons, List.map_nil]
          rw [List.isChain_append]
          refine ⟨a1, by simp, ?_⟩
          intro x hx y hy
          rw [a5] at hx
          have hx' := List.mem_of_getLast? hx
          simp only [List.head?_cons, Option.mem_def, Option.some.injEq] at hy
          subst hy
          rintro rfl
          exact hb hx'
        · rw [List.flatMap_append, hrep]
          simp
        · simp only [List.map_append, List.map_map, Function.comp_def, List.map_id', List.filter_append, a2]
          simp

/-- **C103 (loss of a recording).** The loss is zero if the recording has too few frames for its target; otherwise it is minus the
logarithm of a probability, so it is not negative. It is determined by the logits of the recording and its target. -/
theorem C103_value (vocab : Nat) (t : List Vec) (target : List Int) (x : ℝ) (hv : 2 ≤ vocab) (ht : ∀ a ∈ target, 0 < a ∧ a < (vocab : Int))
    (h : IsCtcLoss vocab t target x) :
    (t.length < target.length + doubled target → x = 0) ∧
    (target.length + doubled target ≤ t.length → ∃ P : ℝ, 0 < P ∧ P ≤ 1 ∧ x = - Real.log P) ∧
    0 ≤ x ∧ ∀ y, IsCtcLoss vocab t target y → y = x := by
  obtain ⟨L, h1, h2, rfl⟩ := h
  have hfit := C103_fits vocab t.length target (by omega) ht
  have hP : L ≠ [] → 0 < (L.map (pathProb vocab t)).sum ∧ (L.map (pathProb vocab t)).sum ≤ 1 := by
    intro hne
    refine ⟨List.sum_pos _ ?_ (by simpa using hne), ?_⟩
    · simp only [List.mem_map]
      rintro _ ⟨p, _, rfl⟩
      exact pathProb_pos vocab (by omega) t p
    · rw [← paths_one vocab hv t]
      have hsub : L.Subperm (paths vocab t.length) := h1.subperm fun p hp => by
        have := (h2 p).1 hp
        exact (mem_paths vocab _ p).2 ⟨this.1, this.2.1⟩
      obtain ⟨L', hp, hs⟩ := hsub
      rw [← (hp.map _).sum_eq]
      refine (hs.map (pathProb vocab t)).sum_le_sum ?_
      simp only [List.mem_map]
      rintro _ ⟨p, _, rfl⟩
      exact (pathProb_pos vocab (by omega) t p).le
  refine ⟨?_, ?_, ?_, ?_⟩
  · intro hlt
    rw [if_pos]
    rw [List.eq_nil_iff_forall_not_mem]
    intro p hp
    have := hfit.1 ⟨p, (h2 p).1 hp⟩
    omega
  · intro hle
    obtain ⟨p, hp⟩ := hfit.2 hle
    have hne : L ≠ [] := List.ne_nil_of_mem ((h2 p).2 hp)
    exact ⟨_, (hP hne).1, (hP hne).2, if_neg hne⟩
  · split
    · exact le_rfl
    · next hne => exact neg_nonneg.2 (Real.log_nonpos (hP hne).1.le (hP hne).2)
  · rintro y ⟨L', h1', h2', rfl⟩
    have hp : L'.Perm L := (List.perm_ext_iff_of_nodup h1' h1).2 fun p => by rw [h2, h2']
    rw [(hp.map _).sum_eq]
    by_cases hL : L = []
    · subst hL
      rw [List.perm_nil.1 hp]
    · have hL' : L' ≠ [] := by
        rintro rfl
        exact hL (List.nil_perm.1 hp)
      rw [if_neg hL, if_neg hL']

private theorem ctcLoss_eq (vocab : Nat) {W Wt : Nat} {rows : List (List Vec)} {l lt : Layout} {trows : List (List Int)}
    {T : List (List Vec)} {targets : List (List Int)} (h1 : Carries W rows l T) (h2 : Carries Wt trows lt targets) :
    ctcLoss vocab (rows.map fun row => row.map fun v => Loss.logSoftmax ((List.range vocab).map v)) l.seqLens trows lt.seqLens =
      ((T.zip targets).map fun x => ctcOne vocab 0 (x.1.map fun v => Loss.logSoftmax ((List.range vocab).map v)) x.2).sum := by
  unfold ctcLoss
  congr 1
  rw [← carries_cut h1, ← carries_cut h2]
  apply List.ext_getElem
  · simp
  · intro i a1 a2
    simp [List.map_take]

/-- **C103 (loss of a batch).** For a batch of recordings, each of which the model accepts, the criterion returns the sum of the losses
of the recordings and their number, where the loss of a recording is the one of its own logits `t`, alone, for its own target. It does
not depend on the padding, nor on the other recordings. The mean grows by the same loss, in bits. -/
theorem C103_loss (m : AsrModel) (hF : Steady m.frontend) (hE : ∀ L ∈ m.encoder.layers, Enc.GoodLayer L) (vocab : Nat)
    {W Wt : Nat} {rows : List (List Vec)} {l lt : Layout} {S : List (List Vec)} {trows targets : List (List Int)} (hne : S ≠ [])
    (hS : Carries W rows l S) (hT : Carries Wt trows lt targets) (hn : targets.length = S.length)
    (hA : ∀ s ∈ S, ∃ t, Alone m.forward s t) :
    ∃ losses : List ℝ, losses.length = S.length ∧
      (∀ (i : Nat) s target x, S[i]? = some s → targets[i]? = some target → losses[i]? = some x →
        ∃ t, Alone m.forward s t ∧ IsCtcLoss vocab t target x) ∧
      ∀ (s : Progress) (mean : MeanSt), criterion m vocab none s mean rows l trows lt =
        some ((losses.sum, S.length), s, ⟨mean.sum + losses.sum / Real.log 2, mean.weights + S.length⟩) := by
  obtain ⟨W', rows', l', T, e, hc, hlen, halone⟩ := (C98_asr m hF hE hne hS).1 hA
  refine ⟨(T.zip targets).map fun x => ctcOne vocab 0 (x.1.map fun v => Loss.logSoftmax ((List.range vocab).map v)) x.2,
    by simp [hlen, hn], ?_, ?_⟩
  · intro i s target x h1 h2 h3
    rw [List.getElem?_map, Option.map_eq_some_iff] at h3
    obtain ⟨⟨t, tg⟩, h4, rfl⟩ := h3
    obtain ⟨h5, h6⟩ := List.getElem?_zip_eq_some.1 h4
    rw [h2, Option.some.injEq] at h6
    subst h6
    exact ⟨t, halone i s t h1 h5, ctcOne_spec vocab t target⟩
  · intro s mean
    have hpos : (S.length : ℝ) ≠ 0 := by
      have := List.length_pos_iff.2 hne
      exact_mod_cast this.ne'
    unfold criterion asrLoss
    simp only [e, Option.bind_some, hT.facts.2.2.1, Bool.false_eq_true, if_false, ctcLoss_eq vocab hc hT, Option.map_some, hS.num,
      MeanSt.update]
    congr 4
    field_simp

private theorem alone_unique {V : Type} {op : List (List V) → Layout → Option (List (List V) × Layout)} {s t t' : List V}
    (h : Alone op s t) (h' : Alone op s t') : t = t' := by
  obtain ⟨l, l1, h1, h2, _⟩ := h
  obtain ⟨l', l1', h1', h2', _⟩ := h'
  have := h1.layout.symm.trans h1'.layout
  rw [Option.some.injEq] at this
  subst this
  rw [h2] at h2'
  simpa using congrArg (fun x => x.map (·.1)) h2'

/-- **C103 (validation).** The criterion with error rates gives the same loss, and the errors that it counts are those of the logits of
the recordings, alone. This holds if no recording is silent, see `C103_crash`. -/
theorem C103_validation_partial (m : AsrModel) (hF : Steady m.frontend) (hE : ∀ L ∈ m.encoder.layers, Enc.GoodLayer L) (vocab : Nat)
    (c : Calculator) (hc : GoodCalculator c vocab) :
    ∃ greedy : List Vec → List Int, (∀ t, Greedy vocab c.blank t (greedy t)) ∧
      ∀ {W Wt : Nat} {rows : List (List Vec)} {l lt : Layout} {S : List (List Vec)} {targets : List (List Int)}, S ≠ [] →
        Carries W rows l S → Carries Wt (targets.map fun p => p ++ List.replicate (Wt - p.length) c.pad) lt targets →
        targets.length = S.length → (∀ s ∈ S, ∃ t, Alone m.forward s t ∧ ¬ Silent c t) →
        ∃ T : List (List Vec), T.length = S.length ∧
          (∀ (i : Nat) s t, S[i]? = some s → T[i]? = some t → Alone m.forward s t) ∧
          ∀ (s : Progress) (mean : MeanSt), ∃ r u, criterion m vocab (some c) s mean rows l
              (targets.map fun p => p ++ List.replicate (Wt - p.length) c.pad) lt = some (r, u) ∧
            criterion m vocab none s mean rows l (targets.map fun p => p ++ List.replicate (Wt - p.length) c.pad) lt =
              some (r, s, u.2) ∧
            u.1.wer.unitErr = s.wer.unitErr + ((T.zip targets).map fun p => c.unitDist (greedy p.1) p.2).sum ∧
            u.1.wer.unitLen = s.wer.unitLen + (targets.map List.length).sum ∧
            u.1.wer.wordErr = s.wer.wordErr +
              ((T.zip targets).map fun p => c.wordDist (c.split (c.decode (greedy p.1))) (c.split (c.decode p.2))).sum ∧
            u.1.wer.wordLen = s.wer.wordLen + (targets.map fun p => (c.split (c.decode p)).length).sum := by
  obtain ⟨greedy, hg, H⟩ := C103_error_rates_partial c vocab hc
  refine ⟨greedy, hg, ?_⟩
  intro W Wt rows l lt S targets hne hS hT hn hA
  obtain ⟨W', rows', l', T, e, hc', hlen, halone⟩ := (C98_asr m hF hE hne hS).1 fun s hs => (hA s hs).imp fun _ h => h.1
  refine ⟨T, hlen, halone, ?_⟩
  intro s mean
  have hz1 : (T.zip targets).map (·.1) = T := List.map_fst_zip (by omega)
  have hz2 : (T.zip targets).map (·.2) = targets := List.map_snd_zip (by omega)
  have hz3 : ∀ {β : Type} (f : List Int → β), (T.zip targets).map (fun p => f p.2) = targets.map f := by
    intro β f
    rw [← hz2, List.map_map, hz2]
    rfl
  have key := H s (W := W') (Wt := Wt) (rows := rows') (l := l') (lt := lt) (T.zip targets) (by
      intro h0
      have := congrArg List.length h0
      simp only [List.length_zip, List.length_nil, hlen, hn, Nat.min_self] at this
      exact hne (List.length_eq_zero_iff.1 this)) (by rw [hz1]; exact hc') (by rw [hz2, hz3 fun p => p ++ List.replicate (Wt - p.length) c.pad]; exact hT) (by
      intro p hp
      obtain ⟨i, hi, rfl⟩ := List.getElem_of_mem hp
      simp only [List.length_zip, hlen, hn, Nat.min_self] at hi
      rw [List.getElem_zip]
      obtain ⟨t, ht, hs⟩ := hA S[i] (List.getElem_mem hi)
      rwa [← alone_unique ht (halone i S[i] _ (List.getElem?_eq_getElem hi) (List.getElem?_eq_getElem _))])
  rw [hz3 fun p => p ++ List.replicate (Wt - p.length) c.pad] at key
  rw [hz3 List.length, hz3 fun p => (c.split (c.decode p)).length] at key
  unfold criterion asrLoss
  simp only [e, Option.bind_some, hT.facts.2.2.1, Bool.false_eq_true, if_false, key, Option.map_some]
  exact ⟨_, _, rfl, rfl, rfl, rfl, rfl, rfl⟩

/-- **C103, violation.** One silent recording, and the validation of the whole batch raises, although its loss is defined. -/
theorem C103_crash (m : AsrModel) (hF : Steady m.frontend) (hE : ∀ L ∈ m.encoder.layers, Enc.GoodLayer L) (vocab : Nat) (c : Calculator)
    {W Wt : Nat} {rows : List (List Vec)} {l lt : Layout} {S : List (List Vec)} {trows targets : List (List Int)} (hne : S ≠ [])
    (hS : Carries W rows l S) (hT : Carries Wt trows lt targets) (hn : targets.length = S.length)
    (hA : ∀ s ∈ S, ∃ t, Alone m.forward s t) (hs : ∃ s ∈ S, ∃ t, Alone m.forward s t ∧ Silent c t) (s : Progress) (mean : MeanSt) :
    criterion m vocab (some c) s mean rows l trows lt = none ∧ criterion m vocab none s mean rows l trows lt ≠ none := by
  constructor
  · obtain ⟨W', rows', l', T, e, hc', hlen, halone⟩ := (C98_asr m hF hE hne hS).1 hA
    obtain ⟨s0, h0, t, ht, hsil⟩ := hs
    obtain ⟨i, hi, rfl⟩ := List.getElem_of_mem h0
    have hmem : t ∈ T := by
      rw [alone_unique ht (halone i S[i] _ (List.getElem?_eq_getElem hi) (List.getElem?_eq_getElem (hlen ▸ hi)))]
      exact List.getElem_mem _
    unfold criterion asrLoss
    simp only [e, Option.bind_some, hT.facts.2.2.1, Bool.false_eq_true, if_false, C103_all_blank c s T hc' t hmem hsil, Option.map_none]
  · obtain ⟨_, _, _, h⟩ := C103_loss m hF hE vocab hne hS hT hn hA
    rw [h]
    simp

/-- **C103 (mean).** After any batches, the metric `ctc_loss` is the sum of their losses in bits, divided by the number of recordings. -/
theorem C103_mean (batches : List (ℝ × Nat)) (h : ∀ b ∈ batches, 0 < b.2) :
    batches.foldl (fun s b => s.update b.1 b.2) (⟨0, 0⟩ : MeanSt) =
      ⟨(batches.map (·.1)).sum / Real.log 2, ((batches.map (·.2)).sum : Nat)⟩ := by
  have gen : ∀ (bs : List (ℝ × Nat)) (s : MeanSt), (∀ b ∈ bs, 0 < b.2) → bs.foldl (fun s b => s.update b.1 b.2) s =
      ⟨s.sum + (bs.map (·.1)).sum / Real.log 2, s.weights + ((bs.map (·.2)).sum : Nat)⟩ := by
    intro bs
    induction bs with
    | nil => intro s _; simp
    | cons b bs ih =>
      intro s hb
      have h0 : (b.2 : ℝ) ≠ 0 := by
        have := hb b (by simp)
        exact_mod_cast this.ne'
      rw [List.foldl_cons, ih _ fun b hb' => hb b (by simp [hb'])]
      simp only [MeanSt.update, List.map_cons, List.sum_cons, Nat.cast_add]
      congr 1
      · rw [div_right_comm, mul_div_cancel₀ _ h0]
        ring
      · ring
  rw [gen batches _ h]
  simp

/-! ## The hypotheses can be met -/

/-- A path with a repeated label, a blank, and the label again. -/
example : SpellsOut 0 [0, 5, 5, 0, 5, 7, 0] [5, 5, 7] := by
  rw [C103_decode]
  decide

/-- A model that gives the same logits for every frame. -/
noncomputable def constantAsr (v : Vec) : AsrModel := ⟨⟨.none, id, .none, id⟩, smallEncoder, fun _ => v⟩

theorem constantAsr_alone (v : Vec) (s : List Vec) (hs : 1 ≤ s.length) : ∃ t, Alone (constantAsr v).forward s t ∧ t ≠ [] ∧ ∀ x ∈ t, x = v := by
  obtain ⟨l, h⟩ := carries_one hs
  have h1 := C98_asr_alone (constantAsr v) ⟨trivial, trivial⟩ smallEncoder_good (s := s) (f := s)
    ⟨l, l, h, by simp [constantAsr, Frontend.forward, Extractor.forward, SpeechPos.forward], h⟩ (smallEncoder_fits _)
  refine ⟨_, h1, ?_, ?_⟩
  · obtain ⟨_, _, _, _, hc⟩ := h1
    have := hc.facts.2.1 _ (List.mem_singleton.2 rfl)
    intro h0
    rw [h0] at this
    simp at this
  · intro x hx
    obtain ⟨_, _, rfl⟩ := List.mem_map.1 hx
    rfl

/-- A calculator for three labels, where 0 is blank and padding. -/
noncomputable def threeLabels : Calculator where
  argmax v := if v 1 ≤ v 0 ∧ v 2 ≤ v 0 then 0 else if v 2 ≤ v 1 then 1 else 2
  decode ts := String.join ((ts.filter (· ≠ 0)).map toString)
  split t := [t]
  pad := 0
  blank := 0
  wordDist _ _ := 0
  unitDist _ _ := 0
  record := true

theorem threeLabels_good : GoodCalculator threeLabels 3 := by
  constructor
  · intro v
    have h3 : ∀ b < 3, b = 0 ∨ b = 1 ∨ b = 2 := by omega
    simp only [threeLabels]
    split
    · next h =>
      refine ⟨by omega, fun b hb => ?_⟩
      rcases h3 b hb with rfl | rfl | rfl
      · exact le_rfl
      · exact h.1
      · exact h.2
    · next h =>
      split
      · next h' =>
        refine ⟨by omega, fun b hb => ?_⟩
        rcases h3 b hb with rfl | rfl | rfl
        · by_contra h0
          exact h ⟨by linarith, by linarith⟩
        · exact le_rfl
        · exact h'
      · next h' =>
        refine ⟨by omega, fun b hb => ?_⟩
        rcases h3 b hb with rfl | rfl | rfl
        · by_contra h0
          exact h ⟨by linarith, by linarith⟩
        · linarith
        · exact le_rfl
  · intro ts k
    simp [threeLabels, List.filter_append]

/-- Two recordings, the second padded with anything, and two targets. The loss is defined. -/
example (v x y z p : Vec) : ∃ l lt, ∃ losses : List ℝ, Carries 2 [[x, y], [z, p]] l [[x, y], [z]] ∧ losses.length = 2 ∧
    ∀ s mean, criterion (constantAsr v) 3 none s mean [[x, y], [z, p]] l [[1, 2], [1, 0]] lt =
      some ((losses.sum, 2), s, ⟨mean.sum + losses.sum / Real.log 2, mean.weights + (2 : Nat)⟩) := by
  obtain ⟨l, h⟩ := carries_two x y z p
  obtain ⟨lt, h2⟩ := carries_two (1 : Int) 2 1 0
  obtain ⟨losses, e1, _, e2⟩ := C103_loss (constantAsr v) ⟨trivial, trivial⟩ smallEncoder_good 3 (by simp) h h2 rfl (by
    intro s hs
    obtain ⟨t, ht, _⟩ := constantAsr_alone v s (by
      simp only [List.mem_cons, List.not_mem_nil, or_false] at hs
      rcases hs with rfl | rfl <;> simp)
    exact ⟨t, ht⟩)
  exact ⟨l, lt, losses, h, e1, e2⟩

/-- If the first label is the most probable one for every frame, both hypotheses consist of that label. -/
example (x y z p : Vec) : ∃ l lt, ∀ s mean, criterion (constantAsr fun i => if i = 1 then 1 else 0) 3 (some threeLabels) s mean
    [[x, y], [z, p]] l [[1, 2], [1, 0]] lt ≠ none := by
  obtain ⟨l, h⟩ := carries_two x y z p
  obtain ⟨lt, h2⟩ := carries_two (1 : Int) 2 1 0
  obtain ⟨_, _, H⟩ := C103_validation_partial (constantAsr fun i => if i = 1 then 1 else 0) ⟨trivial, trivial⟩ smallEncoder_good 3
    threeLabels threeLabels_good
  obtain ⟨_, _, _, e⟩ := H (by simp) h (Wt := 2) (targets := [[1, 2], [1]]) h2 rfl (by
    intro s hs
    obtain ⟨t, ht, hne, hall⟩ := constantAsr_alone (fun i => if i = 1 then 1 else 0) s (by
      simp only [List.mem_cons, List.not_mem_nil, or_false] at hs
      rcases hs with rfl | rfl <;> simp)
    refine ⟨t, ht, ?_⟩
    intro hsil
    obtain ⟨w, hw⟩ := List.exists_mem_of_ne_nil t hne
    have := hsil w hw
    rw [hall w hw] at this
    norm_num [threeLabels] at this)
  refine ⟨l, lt, ?_⟩
  intro s mean
  obtain ⟨r, u, e, _⟩ := e s mean
  exact fun h0 => by
    have := e.symm.trans h0
    cases this

/-- If blank is the most probable label for every frame, the validation raises. -/
example (x y z p : Vec) : ∃ l lt, ∀ s mean, criterion (constantAsr fun i => if i = 0 then 1 else 0) 3 (some threeLabels) s mean
    [[x, y], [z, p]] l [[1, 2], [1, 0]] lt = none := by
  obtain ⟨l, h⟩ := carries_two x y z p
  obtain ⟨lt, h2⟩ := carries_two (1 : Int) 2 1 0
  have hl : ∀ s ∈ [[x, y], [z]], ∃ t, Alone (constantAsr fun i => if i = 0 then 1 else 0).forward s t ∧ Silent threeLabels t := by
    intro s hs
    obtain ⟨t, ht, _, hall⟩ := constantAsr_alone (fun i => if i = 0 then 1 else 0) s (by
      simp only [List.mem_cons, List.not_mem_nil, or_false] at hs
      rcases hs with rfl | rfl <;> simp)
    refine ⟨t, ht, fun w hw => ?_⟩
    rw [hall w hw]
    norm_num [threeLabels]
  exact ⟨l, lt, fun s mean => (C103_crash _ ⟨trivial, trivial⟩ smallEncoder_good 3 threeLabels (by simp) h h2 rfl
    (fun s hs => (hl s hs).imp fun _ h => h.1) ⟨_, by simp, hl [z] (by simp)⟩ s mean).1⟩

/-- Three frames are enough for two different labels, and for two equal ones; two are enough for the former only. -/
example : (∃ p : List Int, p.length = 2 ∧ (∀ a ∈ p, 0 ≤ a ∧ a < ((3 : Nat) : Int)) ∧ SpellsOut 0 p [1, 2]) ∧
    ¬ ∃ p : List Int, p.length = 2 ∧ (∀ a ∈ p, 0 ≤ a ∧ a < ((3 : Nat) : Int)) ∧ SpellsOut 0 p [1, 1] := by
  rw [C103_fits 3 2 _ (by decide) (by decide), C103_fits 3 2 _ (by decide) (by decide)]
  decide

/-- One wrong word in 200 is not reported, three are. -/
example (dW : List String → List String → Nat) (dA : List Int → List Int → Nat) :
    processValues (some ((wer dW dA).compute ⟨30, 1000, 1, 200⟩)) = [] ∧
    processValues (some ((wer dW dA).compute ⟨30, 1000, 3, 200⟩)) = [("uer", 3), ("wer", 3 / 2)] := by
  constructor
  · exact C103_good_models dW dA _ (by decide) (by decide) (.inr (by decide))
  · rw [C103_report_partial dW dA _ (by decide) (by decide) (by decide) (by decide)]
    norm_num

example : ([(3, 2), (1, 4)] : List (ℝ × Nat)).foldl (fun s b => s.update b.1 b.2) (⟨0, 0⟩ : MeanSt) = ⟨4 / Real.log 2, 6⟩ := by
  rw [C103_mean _ (by simp)]
  norm_num

end Fs2.Props
