import Verif.Generation.TextLemmas

/-!
Property C106: texts translated or completed in a batch are what they are alone.
-/

namespace Fs2.Props

open Fs2.Gen

variable {Text S : Type}

/-! ### Specification -/

/-- The tokens the model gets for a source text. -/
def sourceOf (t : Translator Text) (text : Text) : Option (List Int) :=
  (t.encode text).map fun seq =>
    match t.maxSource with
    | some (m + 1) => seq.take (m + 1)
    | _ => seq

/-- The length of the longest. -/
def mostTokens (seqs : List (List Int)) : Nat := (seqs.map (·.length)).foldl max 0

/-- The translator with a fixed maximal length of the generation. -/
def withLimit (t : Translator Text) (m : Int) : Translator Text := { t with scale := 0, extra := m }

/-- The completer whose minimal and maximal length of the generation are larger by `d`. -/
def longerBy (t : Completer Text) (d : Nat) : Completer Text :=
  { t with gen := { t.gen with settings := { t.gen.settings with
      minGen := t.gen.settings.minGen + d, maxGen := t.gen.settings.maxGen + d } } }

/-! ### Translation -/

private def firstText (decode : List Int → Option Text) (hyps : List Hyp) : Option Text :=
  match hyps with
  | [] => none
  | h :: _ => decode h.seq

private theorem mapM_none_of {α β : Type} {l : List α} (h : l ≠ []) : (l.mapM fun _ => (none : Option β)) = none := by
  cases l with
  | nil => exact absurd rfl h
  | cons a l => rfl

private theorem foldl_const (f : Nat → Nat → Nat) (hf : ∀ x, f x x = x) (n : Nat) : ∀ l : List Nat, (∀ x ∈ l, x = n) →
    l.foldl f n = n := by
  intro l
  induction l with
  | nil => intro _; rfl
  | cons a l ih =>
    intro h
    have ha := h a (by simp)
    subst ha
    rw [List.foldl_cons, hf]
    exact ih fun x hx => h x (by simp [hx])

private theorem max_const {n : Nat} {l : List Nat} (h : l ≠ []) (hl : ∀ x ∈ l, x = n) : l.foldl max 0 = n := by
  cases l with
  | nil => exact absurd rfl h
  | cons a l =>
    have ha := hl a (by simp)
    subst ha
    rw [List.foldl_cons, Nat.zero_max]
    exact foldl_const max (fun x => Nat.max_self x) a l fun x hx => hl x (by simp [hx])

private theorem min_const {n : Nat} {l : List Nat} (h : l ≠ []) (hl : ∀ x ∈ l, x = n) : l.foldl min (l.headD 0) = n := by
  cases l with
  | nil => exact absurd rfl h
  | cons a l =>
    have ha := hl a (by simp)
    subst ha
    rw [List.headD_cons, List.foldl_cons, Nat.min_self]
    exact foldl_const min (fun x => Nat.min_self x) a l fun x hx => hl x (by simp [hx])

private theorem limits_congr {c : Settings} {p p' : Prompts} (h1 : p.minLen = p'.minLen) (h2 : p.maxLen = p'.maxLen) :
    limits c p = limits c p' := by
  unfold limits
  rw [h1, h2]

/-- A source by itself with the given limit. -/
private def inLimit (g : Generator (List Int)) (pre : List Int) (decode : List Int → Option Text) (m : Int)
    (src : List Int) : Option Text :=
  (checkLayout pre.length [pre.length]).bind fun _ =>
    if m < 1 then none
    else if m < g.settings.minGen then none
    else (limits { g.settings with maxGen := m.toNat } ⟨pre.length, [pre], [pre.length]⟩).bind fun lim =>
      (solo g { g.settings with maxGen := m.toNat } lim src pre).bind (firstText decode)

private theorem readTexts_eq (decode : List Int → Option Text) (out : List (List Hyp)) :
    readTexts decode out = out.mapM (firstText decode) := rfl

private theorem checkLayout_same {w : Nat} {l : List Nat} (h : l ≠ []) (hl : ∀ x ∈ l, x = w) :
    checkLayout w l = checkLayout w [w] := by
  have h1 : l.any (fun x => decide (x < 1)) = [w].any (fun x => decide (x < 1)) := by
    cases l with
    | nil => exact absurd rfl h
    | cons a l =>
      rw [Bool.eq_iff_iff, List.any_eq_true, List.any_eq_true]
      constructor
      · rintro ⟨x, hx, hd⟩
        exact ⟨w, by simp, by rw [← hl x hx]; exact hd⟩
      · rintro ⟨x, hx, hd⟩
        simp only [List.mem_singleton] at hx
        exact ⟨a, by simp, by rw [hl a (by simp), ← hx]; exact hd⟩
  have h2 : l.any (fun x => decide (w < x)) = [w].any (fun x => decide (w < x)) := by
    rw [Bool.eq_iff_iff, List.any_eq_true, List.any_eq_true]
    constructor
    · rintro ⟨x, hx, hd⟩
      have := hl x hx
      simp only [decide_eq_true_eq] at hd
      omega
    · rintro ⟨x, hx, hd⟩
      simp only [List.mem_singleton] at hx
      simp only [decide_eq_true_eq] at hd
      omega
  unfold checkLayout
  rw [h1, h2]

private theorem zip_const {α β : Type} (x : β) (l : List α) : l.zip (l.map fun _ => x) = l.map fun a => (a, x) := by
  induction l with
  | nil => rfl
  | cons a l ih => rw [List.map_cons, List.zip_cons_cons, ih, List.map_cons]

private theorem convert_eq {t : Translator Text} {V : Nat} (hg : t.gen.Sized V) {rows : List (List Int)} {lens : List Nat}
    (hne : rows ≠ []) (hl : lens.length = rows.length) :
    convert t rows lens = (List.zipWith (fun row len => row.take len) rows lens).mapM
      (inLimit t.gen t.pre t.decode ⌊t.scale * (lens.foldl max 0 : Nat) + t.extra⌋) := by
  have hz : List.zipWith (fun (row : List Int) len => row.take len) rows lens ≠ [] := by
    intro e
    have := congrArg List.length e
    rw [List.length_zipWith, hl, Nat.min_self] at this
    exact hne (List.length_eq_zero_iff.mp this)
  have hpl : rows.map (fun _ => t.pre.length) ≠ [] := by simpa using hne
  have hpc : ∀ x ∈ rows.map (fun _ => t.pre.length), x = t.pre.length := by
    intro x hx
    obtain ⟨y, -, rfl⟩ := List.mem_map.mp hx
    rfl
  unfold convert inLimit
  simp only
  rw [checkLayout_same hpl hpc]
  cases hlay : checkLayout t.pre.length [t.pre.length] with
  | none => simp only [Option.bind_none]; exact (mapM_none_of hz).symm
  | some _ =>
    simp only [Option.bind_some, seq2seq]
    generalize ⌊t.scale * (lens.foldl max 0 : Nat) + t.extra⌋ = m
    by_cases h1 : m < 1
    · simp only [if_pos h1, Option.bind_none]; exact (mapM_none_of hz).symm
    simp only [if_neg h1]
    by_cases h2 : m < t.gen.settings.minGen
    · simp only [if_pos h2, Option.bind_none]; exact (mapM_none_of hz).symm
    simp only [if_neg h2]
    have hlim : ∀ c : Settings, limits c ⟨t.pre.length, rows.map fun _ => t.pre, rows.map fun _ => t.pre.length⟩ =
        limits c ⟨t.pre.length, [t.pre], [t.pre.length]⟩ := by
      intro c
      apply limits_congr
      · show List.foldl min _ _ = List.foldl min _ _
        rw [min_const hpl hpc, min_const (n := t.pre.length) (by simp) (by simp)]
      · show List.foldl max 0 _ = List.foldl max 0 _
        rw [max_const hpl hpc, max_const (n := t.pre.length) (by simp) (by simp)]
    cases hlm : limits { t.gen.settings with maxGen := m.toNat } ⟨t.pre.length, [t.pre], [t.pre.length]⟩ with
    | none =>
      simp only [Option.bind_none]
      unfold generate
      rw [hlim, hlm]
      simp only [Option.bind_none]
      exact (mapM_none_of hz).symm
    | some lim =>
      have hb : Batched ⟨t.pre.length, rows.map fun _ => t.pre, rows.map fun _ => t.pre.length⟩ := by
        refine ⟨by simpa using hne, by simp, ?_, ?_⟩
        · intro row hrow
          obtain ⟨y, -, rfl⟩ := List.mem_map.mp hrow
          rfl
        · intro x hx
          exact Nat.le_of_eq (hpc x hx)
      rw [generate_solo hg m.toNat _ hb (by simp [hl]) (by rw [hlim]; exact hlm)]
      simp only [Option.bind_some]
      have hzip : (List.zipWith (fun (row : List Int) len => row.take len) rows lens).zip
          (List.zipWith (fun (row : List Int) len => row.take len) (rows.map fun _ => t.pre)
            (rows.map fun _ => t.pre.length)) =
          (List.zipWith (fun (row : List Int) len => row.take len) rows lens).map fun s => (s, t.pre) := by
        have e : List.zipWith (fun (row : List Int) len => row.take len) (rows.map fun _ => t.pre)
            (rows.map fun _ => t.pre.length) =
            (List.zipWith (fun (row : List Int) len => row.take len) rows lens).map fun _ => t.pre := by
          apply List.ext_getElem?
          intro i
          rw [List.getElem?_zipWith, List.getElem?_map, List.getElem?_map, List.getElem?_map, List.getElem?_zipWith]
          cases hr : rows[i]? with
          | none => rfl
          | some row =>
            have hi := (List.getElem?_eq_some_iff.mp hr).1
            rw [List.getElem?_eq_getElem (show i < lens.length by omega)]
            simp
        rw [e, zip_const]
      rw [hzip, mapM_map_eq]
      exact mapM_then _ _ _

private theorem sourceOf_eq (t : Translator Text) (text : Text) : sourceOf t text = (t.encode text).map (cutSource t) := by
  unfold sourceOf
  congr 1
  funext seq
  unfold cutSource
  rcases t.maxSource with _ | _ | m <;> rfl

private theorem translate_eq {t : Translator Text} {V : Nat} (hg : t.gen.Sized V) (text : Text) :
    translate t text = (sourceOf t text).bind fun s => if s.length < 1 then none
      else inLimit t.gen t.pre t.decode ⌊t.scale * s.length + t.extra⌋ s := by
  rw [sourceOf_eq]
  unfold translate
  cases t.encode text with
  | none => rfl
  | some seq =>
    simp only [Option.bind_some, Option.map_some]
    generalize cutSource t seq = s
    by_cases h : s.length < 1
    · simp [checkLayout, h]
    · have hc : checkLayout s.length [s.length] = some () := by
        have hs : s ≠ [] := by rintro rfl; exact h (by simp)
        simp [checkLayout, hs]
      rw [hc, convert_eq hg (by simp) (by simp)]
      simp only [Option.bind_some, if_neg h, List.zipWith_cons_cons, List.zipWith_nil_left, List.take_length, List.foldl_cons,
        List.foldl_nil, Nat.zero_max, List.mapM_cons, List.mapM_nil]
      generalize inLimit t.gen t.pre t.decode _ s = o
      cases o <;> rfl

private theorem pad_take {pad : Int} (seqs : List (List Int)) :
    List.zipWith (fun (row : List Int) len => row.take len) (padSeqs pad seqs).2.1 (padSeqs pad seqs).2.2 = seqs := by
  unfold padSeqs
  simp only
  generalize (seqs.map (·.length)).foldl max 0 = w
  induction seqs with
  | nil => rfl
  | cons s seqs ih =>
    rw [List.map_cons, List.map_cons, List.zipWith_cons_cons, ih]
    simp

private theorem most_ge {seqs : List (List Int)} : ∀ s ∈ seqs, s.length ≤ mostTokens seqs := by
  intro s hs
  exact (foldl_max_ge _ _).2 _ (List.mem_map_of_mem hs)

private theorem pad_layout {pad : Int} {seqs : List (List Int)} (hne : seqs ≠ []) :
    checkLayout (padSeqs pad seqs).1 (padSeqs pad seqs).2.2 =
      if ∃ s ∈ seqs, s.length < 1 then none else some () := by
  show checkLayout (mostTokens seqs) (seqs.map (·.length)) = _
  have h2 : (seqs.map (·.length)).any (fun l => decide (mostTokens seqs < l)) = false := by
    rw [List.any_eq_false]
    intro l hl
    obtain ⟨s, hs, rfl⟩ := List.mem_map.mp hl
    have := most_ge s hs
    simp only [decide_eq_true_eq]
    omega
  by_cases h : ∃ s ∈ seqs, s.length < 1
  · rw [if_pos h]
    obtain ⟨s, hs, hl⟩ := h
    have h1 : (seqs.map (·.length)).any (fun l => decide (l < 1)) = true := by
      rw [List.any_eq_true]
      exact ⟨s.length, List.mem_map_of_mem hs, by simpa using hl⟩
    unfold checkLayout
    rw [h1]
    simp
  · rw [if_neg h]
    have h1 : (seqs.map (·.length)).any (fun l => decide (l < 1)) = false := by
      rw [List.any_eq_false]
      intro l hl
      obtain ⟨s, hs, rfl⟩ := List.mem_map.mp hl
      simp only [decide_eq_true_eq]
      exact fun hl => h ⟨s, hs, hl⟩
    have h3 : ¬ mostTokens seqs < 1 := by
      cases seqs with
      | nil => exact absurd rfl hne
      | cons s seqs =>
        have := most_ge (seqs := s :: seqs) s (by simp)
        intro hlt
        exact h ⟨s, by simp, by omega⟩
    unfold checkLayout
    rw [h1, h2]
    simp [h3]

private theorem batchTranslate_eq {t : Translator Text} {V : Nat} (hg : t.gen.Sized V) {texts : List Text} (hne : texts ≠ [])
    {seqs : List (List Int)} (hs : texts.mapM (sourceOf t) = some seqs) :
    batchTranslate t texts = texts.mapM fun text => (sourceOf t text).bind fun s => if s.length < 1 then none
      else inLimit t.gen t.pre t.decode ⌊t.scale * (mostTokens seqs : Nat) + t.extra⌋ s := by
  have hlen : seqs.length = texts.length := mapM_len hs
  have hne' : seqs ≠ [] := by
    intro e
    rw [e] at hlen
    exact hne (List.length_eq_zero_iff.mp hlen.symm)
  have henc : ∃ raw, texts.mapM t.encode = some raw ∧ raw.map (cutSource t) = seqs := by
    have : texts.mapM (sourceOf t) = (texts.mapM t.encode).map (List.map (cutSource t)) := by
      have e := mapM_then t.encode (fun x => some (cutSource t x)) texts
      rw [mapM_eq_congr (g := fun x => (t.encode x).bind fun x => some (cutSource t x)) (fun x _ => by
        rw [sourceOf_eq]; cases t.encode x <;> rfl), ← e]
      cases texts.mapM t.encode with
      | none => rfl
      | some raw =>
        simp only [Option.bind_some, Option.map_some]
        rw [show (fun x => some (cutSource t x)) = (fun x => pure (cutSource t x) : List Int → Option (List Int)) from rfl,
          List.mapM_pure]
        rfl
    rw [hs] at this
    cases he : texts.mapM t.encode with
    | none => rw [he] at this; cases this
    | some raw =>
      rw [he] at this
      simp only [Option.map_some, Option.some.injEq] at this
      exact ⟨raw, rfl, this.symm⟩
  obtain ⟨raw, h1, h2⟩ := henc
  have hcut := mapM_then (sourceOf t) (fun s => if s.length < 1 then none
      else inLimit t.gen t.pre t.decode ⌊t.scale * (mostTokens seqs : Nat) + t.extra⌋ s) texts
  rw [← hcut, hs]
  unfold batchTranslate
  rw [if_neg (by simpa using hne), h1]
  simp only [Option.bind_some, h2]
  rw [pad_layout hne']
  by_cases h : ∃ s ∈ seqs, s.length < 1
  · rw [if_pos h]
    obtain ⟨s, hs', hl⟩ := h
    rw [none_mapM hs' (by rw [if_pos hl])]
    rfl
  · rw [if_neg h]
    simp only [Option.bind_some]
    rw [convert_eq hg (by simpa [padSeqs] using hne') (by simp [padSeqs]), pad_take]
    apply mapM_eq_congr
    intro s hs'
    rw [if_neg (fun hl => h ⟨s, hs', hl⟩)]
    rfl

/-- **Translation.** A batch of texts gets the translations that every text gets by itself from the same translator
with the maximal length of the generation of the longest source of the batch. -/
theorem C106_translate {t : Translator Text} {V : Nat} (hg : t.gen.Sized V) {texts : List Text} (hne : texts ≠ [])
    {seqs : List (List Int)} (hs : texts.mapM (sourceOf t) = some seqs) :
    batchTranslate t texts = texts.mapM (translate (withLimit t ⌊t.scale * (mostTokens seqs : Nat) + t.extra⌋)) := by
  rw [batchTranslate_eq hg hne hs]
  apply mapM_eq_congr
  intro text _
  rw [translate_eq (t := withLimit t _) hg]
  show _ = (sourceOf t text).bind _
  congr 1
  funext s
  simp [withLimit]

/-- **Translation, alike.** If the sources have the same number of tokens, or the maximal length of the generation does
not depend on it, a batch of texts gets the translations that every text gets by itself. Missing: sources of different
lengths, for which it is wrong (`C106_translate_longer`). -/
theorem C106_translate_partial {t : Translator Text} {V : Nat} (hg : t.gen.Sized V) {texts : List Text} (hne : texts ≠ [])
    (hsame : t.scale = 0 ∨ ∃ L, ∀ text ∈ texts, ∀ s, sourceOf t text = some s → s.length = L) :
    batchTranslate t texts = texts.mapM (translate t) := by
  cases hs : texts.mapM (sourceOf t) with
  | none =>
    have hno : ∃ text ∈ texts, sourceOf t text = none := by
      by_contra hall
      simp only [not_exists, not_and] at hall
      obtain ⟨ys, hys⟩ := pairs_mapM (f := sourceOf t) (l := texts) (by
        intro x hx
        cases h : sourceOf t x with
        | none => exact absurd h (hall x hx)
        | some y => exact ⟨y, rfl⟩)
      rw [hs] at hys
      cases hys
    obtain ⟨text, hm, hnone⟩ := hno
    rw [none_mapM hm (by rw [translate_eq hg, hnone]; rfl)]
    rw [sourceOf_eq] at hnone
    have henc : t.encode text = none := by
      cases h : t.encode text with
      | none => rfl
      | some x => rw [h] at hnone; cases hnone
    unfold batchTranslate
    rw [if_neg (by simpa using hne), none_mapM hm henc]
    rfl
  | some seqs =>
    rw [batchTranslate_eq hg hne hs]
    apply mapM_eq_congr
    intro text hm
    rw [translate_eq hg]
    cases hsrc : sourceOf t text with
    | none => rfl
    | some s =>
      simp only [Option.bind_some]
      rcases hsame with h0 | ⟨L, hL⟩
      · simp [h0]
      · have hmost : mostTokens seqs = L := by
          apply max_const
          · intro e
            have := mapM_len hs
            rw [List.map_eq_nil_iff.mp e] at this
            exact hne (List.length_eq_zero_iff.mp this.symm)
          · intro x hx
            obtain ⟨s', hs', rfl⟩ := List.mem_map.mp hx
            obtain ⟨text', ht', he⟩ := mapM_mem hs s' hs'
            exact hL text' ht' s' he
        rw [hmost, hL text hm s hsrc]

/-! ### Completion -/

private theorem limits_single {c : Settings} {w : Nat} {row : List Int} {lim : Limits}
    (h : limits c ⟨w, [row], [row.length]⟩ = some lim) : lim.minPrompt = row.length := by
  rw [(limits_facts h).1]
  show min row.length row.length = row.length
  exact Nat.min_self _

/-- The prompts of a batch of texts. -/
private def promptsOf (seqs : List (List Int)) : Prompts := ⟨(padSeqs 0 seqs).1, (padSeqs 0 seqs).2.1, (padSeqs 0 seqs).2.2⟩

private theorem promptsOf_single (s : List Int) : promptsOf [s] = ⟨s.length, [s], [s.length]⟩ := by
  simp [promptsOf, padSeqs]

private theorem promptsOf_batched {seqs : List (List Int)} (hne : seqs ≠ []) : Batched (promptsOf seqs) := by
  refine ⟨by simpa [promptsOf, padSeqs] using hne, by simp [promptsOf, padSeqs], ?_, ?_⟩
  · intro row hrow
    obtain ⟨s, hs, rfl⟩ := List.mem_map.mp hrow
    have := most_ge s hs
    unfold mostTokens at this
    rw [List.length_append, List.length_replicate]
    show _ = (seqs.map (·.length)).foldl max 0
    omega
  · intro l hl
    obtain ⟨s, hs, rfl⟩ := List.mem_map.mp hl
    exact most_ge s hs

/-- A prompt by itself within the limits of its batch. -/
private def within (t : Completer Text) (lim : Limits) (s : List Int) : Option Text :=
  (solo t.gen t.gen.settings lim () s).bind (firstText t.decode)

private theorem doComplete_eq {t : Completer Text} {V : Nat} (hg : t.gen.Sized V) {seqs : List (List Int)} (hne : seqs ≠ []) :
    doComplete t (promptsOf seqs) = (limits t.gen.settings (promptsOf seqs)).bind fun lim => seqs.mapM (within t lim) := by
  unfold doComplete
  cases hlm : limits t.gen.settings (promptsOf seqs) with
  | none =>
    unfold generate
    rw [show limits { t.gen.settings with maxGen := t.gen.settings.maxGen } (promptsOf seqs) = none from hlm]
    rfl
  | some lim =>
    rw [generate_solo hg t.gen.settings.maxGen _ (promptsOf_batched hne) (by simp) hlm,
      show (promptsOf seqs).rows = (padSeqs 0 seqs).2.1 from rfl, show (promptsOf seqs).lens = (padSeqs 0 seqs).2.2 from rfl,
      pad_take]
    have hzip : ((padSeqs (0 : Int) seqs).2.1.map fun _ => ()).zip seqs = seqs.map fun s => ((), s) := by
      unfold padSeqs
      simp only
      generalize (seqs.map (·.length)).foldl max 0 = w
      clear hlm hne
      induction seqs with
      | nil => rfl
      | cons s seqs ih => simp only [List.map_cons, List.zip_cons_cons] at ih ⊢; rw [ih]
    rw [hzip, mapM_map_eq]
    exact mapM_then _ _ _

private theorem complete_eq {t : Completer Text} {V : Nat} (hg : t.gen.Sized V) (prompt : Text) :
    complete t prompt = (t.encode prompt).bind fun s => if s.length < 1 then none
      else (limits t.gen.settings (promptsOf [s])).bind fun lim => within t lim s := by
  unfold complete
  cases t.encode prompt with
  | none => rfl
  | some s =>
    simp only [Option.bind_some]
    by_cases h : s.length < 1
    · simp [checkLayout, h]
    · have hc : checkLayout s.length [s.length] = some () := by
        have hs : s ≠ [] := by rintro rfl; exact h (by simp)
        simp [checkLayout, hs]
      rw [hc, if_neg h]
      simp only [Option.bind_some]
      rw [← promptsOf_single, doComplete_eq hg (by simp)]
      cases limits t.gen.settings (promptsOf [s]) with
      | none => rfl
      | some lim =>
        simp only [Option.bind_some, List.mapM_cons, List.mapM_nil]
        cases within t lim s <;> rfl

private theorem batchComplete_eq {t : Completer Text} {V : Nat} (hg : t.gen.Sized V) {prompts : List Text} (hne : prompts ≠ [])
    {seqs : List (List Int)} (hs : prompts.mapM t.encode = some seqs) :
    batchComplete t prompts = if ∃ s ∈ seqs, s.length < 1 then none
      else (limits t.gen.settings (promptsOf seqs)).bind fun lim => seqs.mapM (within t lim) := by
  have hne' : seqs ≠ [] := by
    intro e
    have := mapM_len hs
    rw [e] at this
    exact hne (List.length_eq_zero_iff.mp this.symm)
  unfold batchComplete
  rw [if_neg (by simpa using hne), hs]
  simp only [Option.bind_some]
  rw [pad_layout hne']
  split
  · rfl
  · simp only [Option.bind_some]
    exact doComplete_eq hg hne'

/-- **Completion, alike.** Prompts with the same number of tokens get the completions in a batch that every prompt gets
by itself. Missing: prompts of different lengths, for which it is wrong (`C106_complete_eos`, `C106_complete_fails`). -/
theorem C106_complete_partial {t : Completer Text} {V : Nat} (hg : t.gen.Sized V) {prompts : List Text} (hne : prompts ≠ [])
    {L : Nat} (hL : ∀ x ∈ prompts, ∀ s, t.encode x = some s → s.length = L) :
    batchComplete t prompts = prompts.mapM (complete t) := by
  cases hs : prompts.mapM t.encode with
  | none =>
    have hno : ∃ x ∈ prompts, t.encode x = none := by
      by_contra hall
      simp only [not_exists, not_and] at hall
      obtain ⟨ys, hys⟩ := pairs_mapM (f := t.encode) (l := prompts) (by
        intro x hx
        cases h : t.encode x with
        | none => exact absurd h (hall x hx)
        | some y => exact ⟨y, rfl⟩)
      rw [hs] at hys
      cases hys
    obtain ⟨x, hm, hnone⟩ := hno
    rw [none_mapM hm (by rw [complete_eq hg, hnone]; rfl)]
    unfold batchComplete
    rw [if_neg (by simpa using hne), hs]
    rfl
  | some seqs =>
    have hlen : ∀ s ∈ seqs, s.length = L := by
      intro s hs'
      obtain ⟨x, hx, he⟩ := mapM_mem hs s hs'
      exact hL x hx s he
    have hne' : seqs ≠ [] := by
      intro e
      have := mapM_len hs
      rw [e] at this
      exact hne (List.length_eq_zero_iff.mp this.symm)
    have hconst : ∀ x ∈ seqs.map (·.length), x = L := by
      intro x hx
      obtain ⟨s, hs', rfl⟩ := List.mem_map.mp hx
      exact hlen s hs'
    have hlim : ∀ s ∈ seqs, limits t.gen.settings (promptsOf [s]) = limits t.gen.settings (promptsOf seqs) := by
      intro s hs'
      apply limits_congr
      · show List.foldl min _ _ = List.foldl min _ _
        rw [show (promptsOf seqs).lens = seqs.map (·.length) from rfl, min_const (by simpa using hne') hconst,
          show (promptsOf [s]).lens = [s.length] from rfl, min_const (n := L) (by simp) (by simpa using hlen s hs')]
      · show List.foldl max 0 _ = List.foldl max 0 _
        rw [show (promptsOf seqs).lens = seqs.map (·.length) from rfl, max_const (by simpa using hne') hconst,
          show (promptsOf [s]).lens = [s.length] from rfl, max_const (n := L) (by simp) (by simpa using hlen s hs')]
    rw [batchComplete_eq hg hne hs, mapM_eq_congr (fun x _ => complete_eq hg x),
      ← mapM_then t.encode (fun s => if s.length < 1 then none
        else (limits t.gen.settings (promptsOf [s])).bind fun lim => within t lim s), hs]
    simp only [Option.bind_some]
    split
    · rename_i h
      obtain ⟨s, hs', hl⟩ := h
      rw [none_mapM hs' (by rw [if_pos hl])]
    · rename_i h
      rw [mapM_eq_congr (g := fun s => (limits t.gen.settings (promptsOf seqs)).bind fun lim => within t lim s) (by
        intro s hs'
        rw [if_neg (fun hl => h ⟨s, hs', hl⟩), hlim s hs'])]
      cases limits t.gen.settings (promptsOf seqs) with
      | none => simp only [Option.bind_none]; exact (mapM_none_of hne').symm
      | some lim => rfl

private theorem batch_get {t : Completer Text} {V : Nat} (hg : t.gen.Sized V) {prompts : List Text}
    {out : List Text} (h : batchComplete t prompts = some out) :
    prompts ≠ [] ∧ ∃ seqs, prompts.mapM t.encode = some seqs ∧ seqs ≠ [] ∧ (∀ s ∈ seqs, 1 ≤ s.length) ∧
      ∃ lim, limits t.gen.settings (promptsOf seqs) = some lim ∧
        ∀ (i : Nat) (x : Text), prompts[i]? = some x → ∃ s, seqs[i]? = some s ∧ t.encode x = some s ∧ out[i]? = within t lim s := by
  have hne : prompts ≠ [] := by
    rintro rfl
    cases h
  refine ⟨hne, ?_⟩
  cases hs : prompts.mapM t.encode with
  | none =>
    unfold batchComplete at h
    rw [if_neg (by simpa using hne), hs] at h
    cases h
  | some seqs =>
    rw [batchComplete_eq hg hne hs] at h
    split at h
    · cases h
    · rename_i hlen
      rw [Option.bind_eq_some_iff] at h
      obtain ⟨lim, h1, h2⟩ := h
      refine ⟨seqs, rfl, ?_, ?_, lim, h1, ?_⟩
      · intro e
        have := mapM_len hs
        rw [e] at this
        exact hne (List.length_eq_zero_iff.mp this.symm)
      · intro s hs'
        by_contra hl
        exact hlen ⟨s, hs', by omega⟩
      · intro i x hx
        obtain ⟨s, e1, e2⟩ := (mapM_length prompts t.encode seqs hs).2 i x hx
        obtain ⟨y, e3, e4⟩ := (mapM_length seqs _ out h2).2 i s e1
        exact ⟨s, e1, e2, by rw [e3, e4]⟩

/-- The lengths of the shortest and of the longest prompt are the same. -/
def SameSpread (seqs seqs' : List (List Int)) : Prop :=
  (∃ s ∈ seqs, ∃ s' ∈ seqs', s.length = s'.length ∧ (∀ u ∈ seqs, s.length ≤ u.length) ∧ ∀ u ∈ seqs', s'.length ≤ u.length) ∧
  ∃ s ∈ seqs, ∃ s' ∈ seqs', s.length = s'.length ∧ (∀ u ∈ seqs, u.length ≤ s.length) ∧ ∀ u ∈ seqs', u.length ≤ s'.length

private theorem shortest_eq {seqs : List (List Int)} {s : List Int} (hs : s ∈ seqs) (h : ∀ u ∈ seqs, s.length ≤ u.length) :
    (promptsOf seqs).minLen = s.length := by
  show (seqs.map (·.length)).foldl min ((seqs.map (·.length)).headD 0) = s.length
  apply Nat.le_antisymm
  · exact (foldl_min_le' _ _).2 _ (List.mem_map_of_mem hs)
  · apply le_foldl_min
    · cases seqs with
      | nil => cases hs
      | cons a l => exact h a (by simp)
    · intro x hx
      obtain ⟨u, hu, rfl⟩ := List.mem_map.mp hx
      exact h u hu

private theorem longest_eq {seqs : List (List Int)} {s : List Int} (hs : s ∈ seqs) (h : ∀ u ∈ seqs, u.length ≤ s.length) :
    (promptsOf seqs).maxLen = s.length := by
  show (seqs.map (·.length)).foldl max 0 = s.length
  apply Nat.le_antisymm
  · apply foldl_max_le _ _ _ (Nat.zero_le _)
    intro x hx
    obtain ⟨u, hu, rfl⟩ := List.mem_map.mp hx
    exact h u hu
  · exact (foldl_max_ge _ _).2 _ (List.mem_map_of_mem hs)

/-- **Completion, company.** What a prompt gets in a batch depends on the other prompts only by the lengths of the
shortest and of the longest: their tokens, their number and their order do not matter. -/
theorem C106_complete_company {t : Completer Text} {V : Nat} (hg : t.gen.Sized V) {ps qs : List Text} {seqs seqs' : List (List Int)}
    (h1 : ps.mapM t.encode = some seqs) (h2 : qs.mapM t.encode = some seqs') (hsame : SameSpread seqs seqs')
    {out out' : List Text} (ho : batchComplete t ps = some out) (ho' : batchComplete t qs = some out') {i j : Nat} {x : Text}
    (hi : ps[i]? = some x) (hj : qs[j]? = some x) : out[i]? = out'[j]? := by
  obtain ⟨-, u, a1, -, -, lim, a3, a4⟩ := batch_get hg ho
  obtain ⟨-, u', b1, -, -, lim', b3, b4⟩ := batch_get hg ho'
  rw [h1] at a1
  rw [h2] at b1
  cases a1
  cases b1
  have hlim : limits t.gen.settings (promptsOf seqs) = limits t.gen.settings (promptsOf seqs') := by
    obtain ⟨⟨s, m1, s', m2, m3, m4, m5⟩, r, n1, r', n2, n3, n4, n5⟩ := hsame
    apply limits_congr
    · rw [shortest_eq m1 m4, shortest_eq m2 m5, m3]
    · rw [longest_eq n1 n4, longest_eq n2 n5, n3]
  rw [a3, b3] at hlim
  cases hlim
  obtain ⟨s, -, c2, c3⟩ := a4 i x hi
  obtain ⟨s', -, d2, d3⟩ := b4 j x hj
  rw [c2] at d2
  cases d2
  rw [c3, d3]

private theorem limits_longer {t : Completer Text} {seqs : List (List Int)} {lim : Limits}
    (h : limits t.gen.settings (promptsOf seqs) = some lim) {s : List Int} (hs : s ∈ seqs) :
    ∃ lim', limits (longerBy t (mostTokens seqs - s.length)).gen.settings (promptsOf [s]) = some lim' ∧
      lim'.minPrompt = s.length ∧ lim'.minLen = lim.minLen ∧ lim'.maxLen = lim.maxLen ∧ s.length < lim.maxLen := by
  have hle := most_ge s hs
  have hmx : (promptsOf seqs).maxLen = mostTokens seqs := rfl
  have hmx1 : (promptsOf [s]).maxLen = s.length := by
    show max 0 s.length = s.length
    exact Nat.zero_max _
  have hmn1 : (promptsOf [s]).minLen = s.length := by
    show min s.length s.length = s.length
    exact Nat.min_self _
  unfold limits at h
  rw [hmx] at h
  split at h
  · cases h
  split at h
  · cases h
  split at h
  · cases h
  split at h
  · cases h
  rename_i n1 n2 n3 n4
  simp only [Option.some.injEq] at h
  subst h
  have k1 : ¬ t.gen.settings.minGen + (mostTokens seqs - s.length) < 1 := by omega
  have k2 : ¬ t.gen.settings.maxGen + (mostTokens seqs - s.length) < 1 := by omega
  have k3 : ¬ t.gen.settings.maxGen + (mostTokens seqs - s.length) < t.gen.settings.minGen + (mostTokens seqs - s.length) := by
    omega
  have k4 : ¬ t.gen.settings.maxSeq ≤ s.length := by omega
  refine ⟨⟨s.length, s.length, min t.gen.settings.maxSeq (s.length + (t.gen.settings.minGen + (mostTokens seqs - s.length))),
    min t.gen.settings.maxSeq (s.length + (t.gen.settings.maxGen + (mostTokens seqs - s.length)))⟩, ?_, ?_⟩
  · unfold limits
    rw [hmx1, hmn1]
    exact (if_neg k1).trans ((if_neg k2).trans ((if_neg k3).trans (if_neg k4)))
  · refine ⟨rfl, ?_, ?_, ?_⟩
    all_goals dsimp only
    all_goals omega

/-- **Completion, different lengths.** A prompt gets in a batch what it gets by itself from the same completer with
minimal and maximal lengths of the generation that are larger by what the prompt is shorter than the longest one, if
beyond the shortest prompt it has no control symbols and there are no step processors. -/
theorem C106_complete_lengths {t : Completer Text} {V : Nat} (hg : t.gen.Sized V) (hc : HasSymbols t.gen.settings V)
    {prompts : List Text} {seqs : List (List Int)} (hs : prompts.mapM t.encode = some seqs)
    {out : List Text} (ho : batchComplete t prompts = some out) {i : Nat} {x : Text} (hi : prompts[i]? = some x)
    {s : List Int} (hx : t.encode x = some s)
    (hord : (∀ u ∈ seqs, s.length ≤ u.length) ∨ (t.gen.procs = [] ∧
      ∀ u ∈ seqs, ∀ j, u.length ≤ j → ∀ k, s[j]? = some k → Ordinary t.gen.settings k)) :
    out[i]? = complete (longerBy t (mostTokens seqs - s.length)) x := by
  obtain ⟨-, u, a1, a2, a3, lim, a4, a5⟩ := batch_get hg ho
  rw [hs] at a1
  cases a1
  obtain ⟨s', b1, b2, b3⟩ := a5 i x hi
  rw [hx] at b2
  cases b2
  have hmem := List.mem_of_getElem? b1
  obtain ⟨lim', c1, c2, c3, c4, c5⟩ := limits_longer a4 hmem
  have hg' : (longerBy t (mostTokens seqs - s.length)).gen.Sized V := hg
  rw [complete_eq hg', show (longerBy t (mostTokens seqs - s.length)).encode x = some s from hx, b3]
  simp only [Option.bind_some]
  have h1 := a3 s hmem
  rw [if_neg (by omega), c1]
  simp only [Option.bind_some]
  have hr : SameRun t.gen.settings (longerBy t (mostTokens seqs - s.length)).gen.settings lim' lim' :=
    ⟨rfl, rfl, rfl, rfl, rfl, rfl, rfl, rfl⟩
  have hgen : ∀ (c : Settings), solo (longerBy t (mostTokens seqs - s.length)).gen c lim' () s = solo t.gen c lim' () s :=
    fun _ => rfl
  have hsolo : solo t.gen t.gen.settings lim () s = solo t.gen t.gen.settings lim' () s := by
    have hmin := (limits_facts a4).1
    have hmin_le : lim.minPrompt ≤ s.length := by
      rw [hmin]
      exact (foldl_min_le' _ _).2 _ (List.mem_map_of_mem hmem)
    rcases hord with hsh | ⟨hp, ho⟩
    · apply solo_same ⟨rfl, rfl, rfl, rfl, rfl, rfl, c3.symm, c4.symm⟩
      rw [c2, hmin, shortest_eq hmem hsh]
    · obtain ⟨r, r1, r2⟩ : ∃ r ∈ seqs, ∀ u ∈ seqs, r.length ≤ u.length := by
        have : ∀ l : List (List Int), l ≠ [] → ∃ r ∈ l, ∀ u ∈ l, r.length ≤ u.length := by
          intro l
          induction l with
          | nil => intro h; exact absurd rfl h
          | cons a l ih =>
            intro _
            by_cases hl : l = []
            · exact ⟨a, by simp, by simp [hl]⟩
            · obtain ⟨r, hr, hm⟩ := ih hl
              by_cases hle : a.length ≤ r.length
              · refine ⟨a, by simp, ?_⟩
                intro u hu
                rcases List.mem_cons.mp hu with rfl | hu
                · exact Nat.le_refl _
                · exact Nat.le_trans hle (hm u hu)
              · refine ⟨r, by simp [hr], ?_⟩
                intro u hu
                rcases List.mem_cons.mp hu with rfl | hu
                · omega
                · exact hm u hu
        exact this seqs a2
      have hm : lim.minPrompt = r.length := by rw [hmin, shortest_eq r1 r2]
      exact solo_ordinary hg hp hc c5 (by rw [hm]; exact a3 r r1) hmin_le c2 c3.symm c4.symm (by
        rw [hm]
        exact ho r r1)
  unfold within
  rw [hsolo, hgen, solo_same hr rfl]
  rfl

/-- Without texts there is an error. -/
theorem C106_no_texts (t : Translator Text) (c : Completer Text) : batchTranslate t [] = none ∧ batchComplete c [] = none :=
  ⟨rfl, rfl⟩

/-! ### Chunks and scores -/

private theorem generate_chunk (g : Generator S) (k : Option Nat) (m : Nat) (sources : List S) (p : Prompts) :
    generate { g with chunk := k } m sources p = generate g m sources p := by
  unfold generate
  simp only [prepare_rows]
  rfl

/-- **Chunks.** The size of the chunks of the prefill has no influence on translations and completions. -/
theorem C106_chunks (t : Translator Text) (c : Completer Text) (k : Option Nat) (texts : List Text) :
    batchTranslate { t with gen := { t.gen with chunk := k } } texts = batchTranslate t texts ∧
    batchComplete { c with gen := { c.gen with chunk := k } } texts = batchComplete c texts := by
  constructor
  · unfold batchTranslate convert seq2seq
    simp only [generate_chunk]
    rfl
  · unfold batchComplete doComplete
    simp only [generate_chunk]

private theorem generate_sorted {g : Generator S} {m : Nat} {sources : List S} {p : Prompts} {out : List (List Hyp)}
    (h : generate g m sources p = some out) : ∀ hyps ∈ out, hyps.Pairwise fun a b => b.score ≤ a.score := by
  unfold generate at h
  simp only [Option.bind_eq_some_iff] at h
  obtain ⟨lim, -, scores, -, h⟩ := h
  unfold beamGenerate at h
  simp only [Option.bind_eq_bind, Option.bind_eq_some_iff] at h
  obtain ⟨lim', -, s, -, h⟩ := h
  simp only [Option.pure_def, Option.some.injEq] at h
  subst h
  intro hyps hh
  obtain ⟨l, -, rfl⟩ := List.mem_map.mp hh
  exact sortDesc_sorted _ _

private theorem readTexts_best {decode : List Int → Option Text} {out : List (List Hyp)} {texts : List Text}
    (hs : ∀ hyps ∈ out, hyps.Pairwise fun a b => b.score ≤ a.score) (h : readTexts decode out = some texts) :
    texts.length = out.length ∧ ∀ (i : Nat) (hyps : List Hyp), out[i]? = some hyps →
      ∃ hyp ∈ hyps, (∀ other ∈ hyps, other.score ≤ hyp.score) ∧ texts[i]? = decode hyp.seq := by
  refine ⟨mapM_len h, ?_⟩
  intro i hyps hi
  obtain ⟨text, h1, h2⟩ := (mapM_length out _ texts h).2 i hyps hi
  have hsort := hs hyps (List.mem_of_getElem? hi)
  cases hyps with
  | nil => cases h2
  | cons hyp rest =>
    refine ⟨hyp, by simp, ?_, by rw [h1]; exact h2.symm⟩
    intro other ho
    rcases List.mem_cons.mp ho with rfl | ho
    · exact le_refl _
    · exact (List.pairwise_cons.mp hsort).1 other ho

/-- **Best.** The completion of a prompt is the text of a hypothesis of the generator, and none of the hypotheses of the
prompt has a larger score. The generator gets the prompts with their tokens and lengths. -/
theorem C106_best {t : Completer Text} {prompts out : List Text} (h : batchComplete t prompts = some out) :
    ∃ (p : Prompts) (hyps : List (List Hyp)), prompts.mapM t.encode = some (List.zipWith (fun row len => row.take len) p.rows p.lens) ∧
      generate t.gen t.gen.settings.maxGen (p.rows.map fun _ => ()) p = some hyps ∧ out.length = hyps.length ∧
      ∀ (i : Nat) (hs : List Hyp), hyps[i]? = some hs →
        ∃ hyp ∈ hs, (∀ other ∈ hs, other.score ≤ hyp.score) ∧ out[i]? = t.decode hyp.seq := by
  unfold batchComplete at h
  split at h
  · cases h
  rw [Option.bind_eq_some_iff] at h
  obtain ⟨seqs, h1, h⟩ := h
  simp only [Option.bind_eq_some_iff] at h
  obtain ⟨_, -, h⟩ := h
  unfold doComplete at h
  rw [Option.bind_eq_some_iff] at h
  obtain ⟨hyps, h2, h3⟩ := h
  obtain ⟨h4, h5⟩ := readTexts_best (generate_sorted h2) h3
  exact ⟨_, hyps, by rw [h1]; exact congrArg some (pad_take seqs).symm, h2, h4, h5⟩

/-! ### Where company matters -/

/-- The indices of the largest values, equal ones in order. -/
private def largest (k : Nat) (vs : List LogP) : Option (List Nat) :=
  if k ≤ vs.length then some ((sortDesc (fun i => vs.getD i ⊥) (List.range vs.length)).take k) else none

/-- A greedy generator over four tokens: EOS is 1, PAD is 0. -/
def greedy (S : Type) (next : S → List Int → Option (List LogP)) : Generator S where
  settings := {
    eos := 1
    pad := some 0
    unk := none
    numGens := 1
    minGen := 1
    maxGen := 4
    maxSeq := 10
    echo := false
    unkPenalty := 0 }
  next := next
  procs := [.ngram 5, .banned none]
  topk := largest
  normalize := fun _ x => x
  chunk := some 2
  junk := fun _ _ => 7

/-- A translator of token lists whose model prefers token 2. -/
def babbler : Translator (List Int) where
  gen := greedy (List Int) fun _ _ => some [((-4 : ℚ) : LogP), ((-2 : ℚ) : LogP), ((-1 : ℚ) : LogP), ((-3 : ℚ) : LogP)]
  scale := 1
  extra := 0
  encode := some
  pre := [3]
  decode := some
  pad := 0
  maxSource := some 5

/-- A completer of token lists whose model ends the text at once. -/
def terse : Completer (List Int) where
  gen := greedy Unit fun _ _ => some [((-4 : ℚ) : LogP), ((-1 : ℚ) : LogP), ((-2 : ℚ) : LogP), ((-3 : ℚ) : LogP)]
  encode := some
  decode := some

/-- **A longer source.** The translation of a text in a batch with a longer one is not its translation alone: the
maximal length of the generation is that of the longest source (generator.py:337-343). -/
theorem C106_translate_longer : ∃ t : Translator (List Int), t.gen.Sized 4 ∧ translate t [2] = some [1] ∧
    (batchTranslate t [[2], [2, 2, 2]]).bind (·[0]?) = some [2, 2, 1] :=
  ⟨babbler, by rintro s l q h; cases h; rfl, by decide +kernel, by decide +kernel⟩

/-- **A longer prompt.** The completion of a prompt in a batch with a longer one is not its completion alone: EOS is
forbidden until the shortest allowed generation of the longest prompt is reached (generator.py:436, 624-626). -/
theorem C106_complete_eos : ∃ t : Completer (List Int), t.gen.Sized 4 ∧ complete t [2] = some [1] ∧
    (batchComplete t [[2], [2, 3, 2]]).bind (·[0]?) = some [2, 2, 1] :=
  ⟨terse, by rintro s l q h; cases h; rfl, by decide +kernel, by decide +kernel⟩

/-- **A shorter prompt.** A prompt that is completed alone may make a batch fail: the tokens beyond the shortest prompt
are scored with the log probabilities in which EOS and PAD are forbidden (generator.py:604-626, 689-709), so that a
prompt with an EOS there, as the prompt of a chat with several turns, gets minus infinity, every continuation is as
good as any other, and EOS need not win at the last position. -/
theorem C106_complete_fails : ∃ t : Completer (List Int), t.gen.Sized 4 ∧ HasSymbols t.gen.settings 4 ∧
    complete t [2, 1, 2] = some [3, 3, 3, 1] ∧ complete t [2] = some [3, 3, 3, 1] ∧
    batchComplete t [[2, 1, 2], [2]] = none :=
  ⟨⟨greedy Unit fun _ _ => some [((-4 : ℚ) : LogP), ((-2 : ℚ) : LogP), ((-3 : ℚ) : LogP), ((-1 : ℚ) : LogP)], some, some⟩,
    by rintro s l q h; cases h; rfl, by refine ⟨by decide, ?_, ?_⟩ <;> (intro x h; cases h <;> decide),
    by decide +kernel, by decide +kernel, by decide +kernel⟩

/-- Two prompts of different lengths for `C106_complete_lengths` and `C106_best`: the shorter one is completed as by
itself with larger limits. -/
example : batchComplete terse [[2], [2, 3, 2]] = some [[2, 2, 1], [1]] ∧
    complete (longerBy terse 2) [2] = some [2, 2, 1] ∧ HasSymbols terse.gen.settings 4 ∧ terse.gen.Sized 4 :=
  ⟨by decide +kernel, by decide +kernel, by refine ⟨by decide, ?_, ?_⟩ <;> (intro x h; cases h <;> decide),
    by rintro s l q h; cases h; rfl⟩

/-- Two batches of the same spread for `C106_complete_company`, and a batch of two equal lengths for
`C106_complete_partial`. -/
example : SameSpread [[2], [2, 3, 2]] [[3], [2], [3, 3, 3], [2, 2]] ∧
    batchComplete terse [[3], [2], [3, 3, 3], [2, 2]] = some [[2, 2, 1], [2, 2, 1], [1], [2, 1]] ∧
    batchComplete terse [[3], [2]] = some [[1], [1]] := by
  refine ⟨?_, by decide +kernel, by decide +kernel⟩
  unfold SameSpread
  decide

/-- Sources for `C106_translate` and `C106_translate_partial`. -/
example : babbler.gen.Sized 4 ∧ batchTranslate babbler [[2], [2, 2, 2]] = some [[2, 2, 1], [2, 2, 1]] ∧
    batchTranslate babbler [[2, 3], [2, 2]] = some [[2, 1], [2, 1]] :=
  ⟨by rintro s l q h; cases h; rfl, by decide +kernel, by decide +kernel⟩

end Fs2.Props
