import Verif.Models.KeyMapLemmas

/-!
# Lemmas about dictionaries and their conversion
-/

namespace Fs2.Interop

/-- The key map written as texts. -/
def texts (km : List (List Tok × List Tok)) : List (Key × Key) :=
  km.map fun e => (patternText e.1, replText e.2)

def swap (km : List (List Tok × List Tok)) : List (List Tok × List Tok) :=
  km.map fun e => (e.2, e.1)

/-- Some key fits both templates. -/
def Overlap (t u : List Tok) : Prop := ∃ d d' rest rest' key, Fits t d rest key ∧ Fits u d' rest' key

/-- The entries are clean and have numbers on both sides or on none; no key fits two patterns, and no
key fits two replacements. -/
structure Good (km : List (List Tok × List Tok)) : Prop where
  clean : ∀ e ∈ km, Clean e.1 ∧ Clean e.2 ∧ (Tok.num ∈ e.1 ↔ Tok.num ∈ e.2)
  sources : km.Pairwise fun a b => ¬ Overlap a.1 b.1
  targets : km.Pairwise fun a b => ¬ Overlap a.2 b.2

/-- What the key becomes: what fits a pattern is replaced, other keys stay. -/
def Renames (km : List (List Tok × List Tok)) (key key' : Key) : Prop :=
  (∃ e ∈ km, ∃ d rest, Fits e.1 d rest key ∧ key' = written d e.2 ++ rest) ∨
  ((∀ e ∈ km, ∀ d rest, ¬ Fits e.1 d rest key) ∧ key' = key)

/-- The key does not have the form of the other side, unless it has that of its own side too. -/
def Ours (km : List (List Tok × List Tok)) (key : Key) : Prop :=
  (∃ e ∈ km, ∃ d rest, Fits e.1 d rest key) ∨ (∀ e ∈ km, ∀ d rest, ¬ Fits e.2 d rest key)

variable {km : List (List Tok × List Tok)}

theorem Overlap.symm {t u : List Tok} (h : Overlap t u) : Overlap u t := by
  obtain ⟨d, d', r, r', k, h1, h2⟩ := h
  exact ⟨d', d, r', r, k, h2, h1⟩

theorem pairwise_eq {α : Type} {R : α → α → Prop} (hs : ∀ a b, R a b → R b a) :
    ∀ {l : List α}, l.Pairwise (fun a b => ¬ R a b) → ∀ {a b}, a ∈ l → b ∈ l → R a b → a = b
  | x :: l, h, a, b, ha, hb, hr => by
    rw [List.pairwise_cons] at h
    rcases List.mem_cons.1 ha with ha' | ha'
    · subst ha'
      rcases List.mem_cons.1 hb with hb' | hb'
      · exact hb'.symm
      · exact absurd hr (h.1 b hb')
    · rcases List.mem_cons.1 hb with hb' | hb'
      · subst hb'; exact absurd (hs _ _ hr) (h.1 a ha')
      · exact pairwise_eq hs h.2 ha' hb' hr

theorem Good.swap (h : Good km) : Good (swap km) where
  clean := by
    intro e he
    simp only [Interop.swap, List.mem_map] at he
    obtain ⟨e', he', rfl⟩ := he
    obtain ⟨h1, h2, h3⟩ := h.clean e' he'
    exact ⟨h2, h1, h3.symm⟩
  sources := by
    simp only [Interop.swap, List.pairwise_map]
    exact h.targets
  targets := by
    simp only [Interop.swap, List.pairwise_map]
    exact h.sources

theorem swap_swap : swap (swap km) = km := by
  simp only [swap, List.map_map]
  exact List.map_id km

theorem mem_swap {e : List Tok × List Tok} : e ∈ swap km ↔ (e.2, e.1) ∈ km := by
  simp only [swap, List.mem_map]
  constructor
  · rintro ⟨e', he', rfl⟩; exact he'
  · intro h; exact ⟨_, h, rfl⟩

/-! ## Keys -/

theorem converted_none : ∀ {km : List (List Tok × List Tok)} {key : Key},
    (∀ e ∈ km, Clean e.1 ∧ Clean e.2 ∧ (Tok.num ∈ e.1 ↔ Tok.num ∈ e.2)) →
    (∀ e ∈ km, ∀ d rest, ¬ Fits e.1 d rest key) → getConvertedKey (texts km) key = some key
  | [], _, _, _ => rfl
  | (t, r) :: km, key, hc, h => by
    obtain ⟨h1, h2, -⟩ := hc (t, r) (by simp)
    have e : texts ((t, r) :: km) = (patternText t, replText r) :: texts km := rfl
    rw [e, getConvertedKey, parse_pattern h1.1, parse_repl r h2.1]
    simp only [Option.bind_eq_bind, Option.bind_some]
    rw [sub_not h1 fun d rest => h (t, r) (by simp) d rest]
    simp only [Option.bind_some, ne_eq, not_true, if_false]
    exact converted_none (fun e he => hc e (by simp [he])) fun e he => h e (by simp [he])

theorem converted_fits : ∀ {km : List (List Tok × List Tok)} {key : Key} {e : List Tok × List Tok}
    {d rest : List Char},
    (∀ e ∈ km, Clean e.1 ∧ Clean e.2 ∧ (Tok.num ∈ e.1 ↔ Tok.num ∈ e.2)) →
    (km.Pairwise fun a b => ¬ Overlap a.1 b.1) → e ∈ km → Fits e.1 d rest key →
    getConvertedKey (texts km) key = some (written d e.2 ++ rest)
  | (t, r) :: km, key, e, d, rest, hc, hp, he, hf => by
    obtain ⟨h1, h2, h3⟩ := hc (t, r) (by simp)
    have e0 : texts ((t, r) :: km) = (patternText t, replText r) :: texts km := rfl
    rw [List.pairwise_cons] at hp
    have hc' : ∀ e ∈ km, Clean e.1 ∧ Clean e.2 ∧ (Tok.num ∈ e.1 ↔ Tok.num ∈ e.2) :=
      fun e he => hc e (by simp [he])
    rw [e0, getConvertedKey, parse_pattern h1.1, parse_repl r h2.1]
    simp only [Option.bind_eq_bind, Option.bind_some]
    rcases List.mem_cons.1 he with rfl | he
    · rw [sub_fits h1 h3.2 hf]
      simp only [Option.bind_some]
      by_cases hk : written d r ++ rest = key
      · rw [if_neg (by simpa using hk), hk]
        exact converted_none hc' fun e he d' rest' hf' => hp.1 e he ⟨_, _, _, _, _, hf, hf'⟩
      · rw [if_pos hk]
    · rw [sub_not h1 fun d' rest' hf' => hp.1 e he ⟨_, _, _, _, _, hf', hf⟩]
      simp only [Option.bind_some, ne_eq, not_true, if_false]
      exact converted_fits hc' hp.2 he hf

theorem converted_iff (h : Good km) (key key' : Key) :
    getConvertedKey (texts km) key = some key' ↔ Renames km key key' := by
  by_cases hf : ∃ e ∈ km, ∃ d rest, Fits e.1 d rest key
  · obtain ⟨e, he, d, rest, hf⟩ := hf
    rw [converted_fits h.clean h.sources he hf]
    constructor
    · intro hk
      cases hk
      exact Or.inl ⟨e, he, d, rest, hf, rfl⟩
    · rintro (⟨e', he', d', rest', hf', rfl⟩ | ⟨hn, -⟩)
      · have := pairwise_eq (R := fun a b : List Tok × List Tok => Overlap a.1 b.1)
          (fun _ _ h => h.symm) h.sources he he' ⟨_, _, _, _, _, hf, hf'⟩
        subst this
        obtain ⟨rfl, -, hd⟩ := fits_unique (h.clean e he).1 hf hf'
        by_cases hm : Tok.num ∈ e.1
        · rw [hd hm]
        · rw [written_no_num d d' e.2 fun hm' => hm ((h.clean e he).2.2.2 hm')]
      · exact absurd hf (hn e he d rest)
  · have hn : ∀ e ∈ km, ∀ d rest, ¬ Fits e.1 d rest key := fun e he d rest hf' =>
      hf ⟨e, he, d, rest, hf'⟩
    rw [converted_none h.clean hn]
    constructor
    · intro hk; cases hk; exact Or.inr ⟨hn, rfl⟩
    · rintro (⟨e, he, d, rest, hf', -⟩ | ⟨-, rfl⟩)
      · exact absurd hf' (hn e he d rest)
      · rfl

theorem renames_total (km : List (List Tok × List Tok)) (key : Key) : ∃ key', Renames km key key' := by
  by_cases hf : ∃ e ∈ km, ∃ d rest, Fits e.1 d rest key
  · obtain ⟨e, he, d, rest, hf⟩ := hf
    exact ⟨_, Or.inl ⟨e, he, d, rest, hf, rfl⟩⟩
  · exact ⟨key, Or.inr ⟨fun e he d rest hf' => hf ⟨e, he, d, rest, hf'⟩, rfl⟩⟩

theorem renames_unique (h : Good km) {key a b : Key} (ha : Renames km key a) (hb : Renames km key b) :
    a = b := by
  rw [← converted_iff h] at ha hb
  rw [ha] at hb
  exact Option.some.inj hb

theorem renames_back {key key' : Key} (hp : Ours km key) (hr : Renames km key key') :
    Renames (swap km) key' key ∧ Ours (swap km) key' := by
  rcases hr with ⟨e, he, d, rest, hf, rfl⟩ | ⟨hn, rfl⟩
  · have hs : (e.2, e.1) ∈ swap km := mem_swap.2 he
    exact ⟨Or.inl ⟨_, hs, d, rest, ⟨hf.1, rfl⟩, hf.2⟩, Or.inl ⟨_, hs, d, rest, hf.1, rfl⟩⟩
  · rcases hp with ⟨e, he, d, rest, hf⟩ | hp
    · exact absurd hf (hn e he d rest)
    · refine ⟨Or.inr ⟨fun e he d rest hf => ?_, rfl⟩, Or.inr fun e he d rest hf => ?_⟩
      · exact hp _ (mem_swap.1 he) d rest hf
      · exact hn _ (mem_swap.1 he) d rest hf

/-! ## Reversing a key map -/

variable {V : Type}

theorem has_iff {d : Dict V} {k : Key} : Dict.has d k = true ↔ k ∈ d.map (·.1) := by
  simp only [Dict.has, List.any_eq_true, List.mem_map, beq_iff_eq]

theorem put_new {d : Dict V} {k : Key} {v : V} (h : k ∉ d.map (·.1)) : Dict.put d k v = d ++ [(k, v)] := by
  rw [Dict.put, if_neg (by rw [has_iff]; exact h)]

theorem pattern_inj {t u : List Tok} (ht : Plain t) (hu : Plain u) (h : patternText t = patternText u) :
    t = u := by
  have h1 := parse_pattern ht
  rw [h, parse_pattern hu] at h1
  exact (Option.some.inj h1).symm

theorem reverse_go : ∀ (km done : List (List Tok × List Tok)),
    (∀ e ∈ done ++ km, Plain e.1 ∧ Plain e.2) → ((done ++ km).map (·.2)).Nodup →
    (texts km).foldl (fun (reverse : Dict Key) e =>
      let r := reverseEntry e.1 e.2
      reverse.put r.1 r.2) (texts (swap done)) = texts (swap (done ++ km))
  | [], done, _, _ => by simp [texts]
  | (t, r) :: km, done, hp, hn => by
    have e0 : texts ((t, r) :: km) = (patternText t, replText r) :: texts km := rfl
    obtain ⟨ht, hr⟩ := hp (t, r) (by simp)
    rw [e0, List.foldl_cons]
    simp only [reverseEntry_text ht hr]
    rw [put_new]
    · have e1 : texts (swap done) ++ [(patternText r, replText t)] = texts (swap (done ++ [(t, r)])) := by
        simp [texts, swap]
      rw [e1, reverse_go km (done ++ [(t, r)]) (by simpa using hp) (by simpa using hn)]
      simp
    · intro hm
      simp only [texts, swap, List.map_map, List.mem_map, Function.comp_apply] at hm
      obtain ⟨e, he, hpe⟩ := hm
      have := pattern_inj (hp e (by simp [he])).2 hr hpe
      rw [List.map_append, List.map_cons, List.nodup_append] at hn
      exact hn.2.2 e.2 (List.mem_map.2 ⟨e, he, rfl⟩) r (by simp) this

theorem reverse_texts (hp : ∀ e ∈ km, Plain e.1 ∧ Plain e.2) (hn : (km.map (·.2)).Nodup) :
    createReverseKeyMap (texts km) = texts (swap km) :=
  reverse_go km [] hp hn

theorem Good.nodup (h : Good km) : (km.map (·.2)).Nodup := by
  rw [List.Nodup, List.pairwise_map]
  refine h.targets.imp fun {a b} hab he => hab ?_
  rw [he]
  have hd : Number ['0'] := ⟨by simp, by decide⟩
  exact ⟨['0'], ['0'], [], [], _, ⟨hd, rfl⟩, ⟨hd, rfl⟩⟩

theorem Good.reverse (h : Good km) : createReverseKeyMap (texts km) = texts (Interop.swap km) :=
  reverse_texts (fun e he => ⟨(h.clean e he).1.1, (h.clean e he).2.1.1⟩) h.nodup

/-! ## Dictionaries -/

theorem convert_go {m : List (Key × Key)} {f : Key → Key} : ∀ (sd acc : Dict V),
    (∀ e ∈ sd, getConvertedKey m e.1 = some (f e.1)) →
    (acc.map (·.1) ++ sd.map fun e => f e.1).Nodup →
    sd.foldlM (fun converted (e : Key × V) => do
      let key ← getConvertedKey m e.1
      some (Dict.put converted key e.2)) acc = some (acc ++ sd.map fun e => (f e.1, e.2))
  | [], acc, _, _ => by simp
  | e :: sd, acc, hf, hn => by
    rw [List.foldlM_cons, hf e (by simp)]
    simp only [Option.bind_eq_bind, Option.bind_some]
    have hnew : f e.1 ∉ acc.map (·.1) := by
      intro hm
      rw [List.nodup_append] at hn
      exact hn.2.2 _ hm (f e.1) (by simp) rfl
    rw [put_new hnew]
    have := convert_go sd (acc ++ [(f e.1, e.2)]) (fun e' he' => hf e' (by simp [he']))
      (by simpa using hn)
    simp only [Option.bind_eq_bind] at this
    rw [this]
    simp

theorem convert_map {m : List (Key × Key)} {f : Key → Key} {sd : Dict V}
    (hf : ∀ e ∈ sd, getConvertedKey m e.1 = some (f e.1)) (hn : (sd.map fun e => f e.1).Nodup) :
    convertStateDict sd m = some (sd.map fun e => (f e.1, e.2)) := by
  have := convert_go sd [] hf (by simpa using hn)
  simpa [convertStateDict] using this

/-- The new name of a key. -/
def rename (km : List (List Tok × List Tok)) (key : Key) : Key :=
  (getConvertedKey (texts km) key).getD key

theorem rename_spec (h : Good km) (key : Key) : Renames km key (rename km key) := by
  obtain ⟨k', hk⟩ := renames_total km key
  have := (converted_iff h key k').2 hk
  simpa [rename, this] using hk

theorem rename_some (h : Good km) (key : Key) :
    getConvertedKey (texts km) key = some (rename km key) :=
  (converted_iff h _ _).2 (rename_spec h key)

theorem rename_eq (h : Good km) {key key' : Key} (hr : Renames km key key') : rename km key = key' :=
  renames_unique h (rename_spec h key) hr

theorem rename_back (h : Good km) {key : Key} (hp : Ours km key) :
    rename (swap km) (rename km key) = key ∧ Ours (swap km) (rename km key) := by
  obtain ⟨h1, h2⟩ := renames_back hp (rename_spec h key)
  exact ⟨rename_eq h.swap h1, h2⟩

theorem nodup_of_inj {α β : Type} {f : α → β} : ∀ {l : List α},
    (∀ a ∈ l, ∀ b ∈ l, f a = f b → a = b) → l.Nodup → (l.map f).Nodup
  | [], _, _ => by simp
  | a :: l, hf, hn => by
    rw [List.nodup_cons] at hn
    rw [List.map_cons, List.nodup_cons]
    refine ⟨?_, nodup_of_inj (fun x hx y hy => hf x (by simp [hx]) y (by simp [hy])) hn.2⟩
    rw [List.mem_map]
    rintro ⟨b, hb, hbe⟩
    exact hn.1 (hf b (by simp [hb]) a (by simp) hbe ▸ hb)

theorem rename_nodup (h : Good km) {sd : Dict V} (hn : (sd.map (·.1)).Nodup)
    (hp : ∀ e ∈ sd, Ours km e.1) : (sd.map fun e => rename km e.1).Nodup := by
  have : (sd.map fun e => rename km e.1) = (sd.map (·.1)).map (rename km) := by simp
  rw [this]
  refine nodup_of_inj ?_ hn
  intro a ha b hb hab
  rw [List.mem_map] at ha hb
  obtain ⟨x, hx, rfl⟩ := ha
  obtain ⟨y, hy, rfl⟩ := hb
  rw [← (rename_back h (hp x hx)).1, hab, (rename_back h (hp y hy)).1]

theorem convert_eq (h : Good km) {sd : Dict V} (hn : (sd.map (·.1)).Nodup)
    (hp : ∀ e ∈ sd, Ours km e.1) :
    convertStateDict sd (texts km) = some (sd.map fun e => (rename km e.1, e.2)) :=
  convert_map (fun e _ => rename_some h e.1) (rename_nodup h hn hp)

theorem convert_back (h : Good km) {sd : Dict V} (hn : (sd.map (·.1)).Nodup)
    (hp : ∀ e ∈ sd, Ours km e.1) :
    convertStateDict (sd.map fun e => (rename km e.1, e.2)) (texts (swap km)) = some sd := by
  rw [convert_eq h.swap]
  · rw [List.map_map]
    congr 1
    conv => rhs; rw [← List.map_id sd]
    apply List.map_congr_left
    intro e he
    simp only [Function.comp_apply, (rename_back h (hp e he)).1, id]
  · rw [List.map_map]; exact rename_nodup h hn hp
  · intro e he
    rw [List.mem_map] at he
    obtain ⟨e', he', rfl⟩ := he
    exact (rename_back h (hp e' he')).2

/-! ## A test for good key maps -/

def plainB : List Tok → Bool
  | [] => true
  | .ch c :: ts => (c == '.' || !special c) && plainB ts
  | .num :: .ch c :: ts => !c.isDigit && plainB (.ch c :: ts)
  | .num :: _ => false

theorem plainB_spec : ∀ t : List Tok, plainB t = true → Plain t
  | [], _ => trivial
  | .ch c :: ts, h => by
    simp only [plainB, Bool.and_eq_true, Bool.or_eq_true, beq_iff_eq, Bool.not_eq_true'] at h
    exact ⟨h.1, plainB_spec ts h.2⟩
  | .num :: .ch c :: ts, h => by
    rw [plainB, Bool.and_eq_true, Bool.not_eq_true'] at h
    exact ⟨⟨c, ts, rfl, h.1⟩, plainB_spec _ h.2⟩
  | [.num], h => by simp [plainB] at h
  | .num :: .num :: _, h => by simp [plainB] at h

def cleanB (t : List Tok) : Bool := plainB t && decide (t.count .num ≤ 1)

theorem cleanB_spec {t : List Tok} (h : cleanB t = true) : Clean t := by
  simp only [cleanB, Bool.and_eq_true, decide_eq_true_eq] at h
  exact ⟨plainB_spec t h.1, h.2⟩

def apartAll : List (List Tok) → Bool
  | [] => true
  | t :: ts => ts.all (apart t) && apartAll ts

theorem apart_not_overlap {t u : List Tok} (ht : Clean t) (hu : Clean u) (h : apart t u = true) :
    ¬ Overlap t u := by
  rintro ⟨d, d', rest, rest', k, h1, h2⟩
  exact apart_spec t u ht.1 hu.1 ht.2 hu.2 h d d' rest rest' h1.1 h2.1 (h1.2.symm.trans h2.2)

theorem apartAll_spec : ∀ {l : List (List Tok)}, (∀ t ∈ l, Clean t) → apartAll l = true →
    l.Pairwise fun a b => ¬ Overlap a b
  | [], _, _ => List.Pairwise.nil
  | t :: l, hc, h => by
    simp only [apartAll, Bool.and_eq_true, List.all_eq_true] at h
    rw [List.pairwise_cons]
    exact ⟨fun u hu => apart_not_overlap (hc t (by simp)) (hc u (by simp [hu])) (h.1 u hu),
      apartAll_spec (fun u hu => hc u (by simp [hu])) h.2⟩

def goodB (km : List (List Tok × List Tok)) : Bool :=
  (km.all fun e => cleanB e.1 && cleanB e.2 && (decide (Tok.num ∈ e.1) == decide (Tok.num ∈ e.2))) &&
    apartAll (km.map (·.1)) && apartAll (km.map (·.2))

theorem goodB_spec (h : goodB km = true) : Good km := by
  simp only [goodB, Bool.and_eq_true, List.all_eq_true, beq_iff_eq, decide_eq_decide] at h
  obtain ⟨⟨h1, h2⟩, h3⟩ := h
  have hc : ∀ e ∈ km, Clean e.1 ∧ Clean e.2 ∧ (Tok.num ∈ e.1 ↔ Tok.num ∈ e.2) := fun e he =>
    ⟨cleanB_spec (h1 e he).1.1, cleanB_spec (h1 e he).1.2, (h1 e he).2⟩
  refine ⟨hc, ?_, ?_⟩
  · have := apartAll_spec (fun t ht => by
      rw [List.mem_map] at ht
      obtain ⟨e, he, rfl⟩ := ht
      exact (hc e he).1) h2
    rwa [List.pairwise_map] at this
  · have := apartAll_spec (fun t ht => by
      rw [List.mem_map] at ht
      obtain ⟨e, he, rfl⟩ := ht
      exact (hc e he).2.1) h3
    rwa [List.pairwise_map] at this

end Fs2.Interop
