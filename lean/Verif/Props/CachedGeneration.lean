import Verif.Generation.CachedDecoder
import Verif.Generation.CachedLoop
import Verif.Props.Decoder
import Verif.Props.TextGeneration

/-!
# C107: a generation with a state bag is that of a model without state
-/

namespace Fs2.Props
open Fs2.Nn Fs2.Dec Fs2.Dec.Spec
open Fs2.Gen hiding grown

/-- The sequence that belongs to a prompt. -/
def rowOf (sources : List (List Vec)) (r : Nat × List Int) : Row :=
  ⟨r.2.map Int.toNat, sources.getD r.1 []⟩

/-- The session holds the sequences. -/
def HoldsAll (m : Model) (given : Option Source) (inc : Option Int) (sources : List (List Vec)) (M : Nat)
    (s : Session) (R : List (Nat × List Int)) : Prop :=
  R ≠ [] → ∃ a, (∀ r ∈ R, r.2.length = a ∧ r.1 < sources.length) ∧
    Between m given M inc s (R.map (rowOf sources)) a

private theorem logits_take (m : Model) (src : List Vec) (t : List Nat) (k : Nat) :
    logits m src (t.take k) = (logits m src t).take k := by
  have h : ∀ (Ls : List Layer) (xs : List Vec),
      Ls.foldl (fun xs L => layer L src xs) (xs.take k) = (Ls.foldl (fun xs L => layer L src xs) xs).take k := by
    intro Ls
    induction Ls with
    | nil => intro xs; rfl
    | cons L Ls ih =>
      intro xs
      rw [List.foldl_cons, List.foldl_cons, layer_take, ih]
  unfold logits
  rw [← List.map_take, ← h, take_mapIdx]

private theorem mapM_drop {P : Type} (m : Model) (score : Vec → Option (List P)) (src : List Vec) (t u : List Int) {n : Nat}
    (hu : u.length = n) :
    ((List.range n).mapM fun j => recomputing m score src (t ++ u.take (j + 1))) =
      ((logits m src ((t ++ u).map Int.toNat)).drop t.length).mapM score := by
  rw [mapM_range ((logits m src ((t ++ u).map Int.toNat)).drop t.length)]
  have hl : ((logits m src ((t ++ u).map Int.toNat)).drop t.length).length = n := by
    rw [List.length_drop, logits_length, List.length_map, List.length_append]
    omega
  rw [hl]
  apply mapM_eq_congr
  intro j hj
  have hj := List.mem_range.mp hj
  unfold recomputing
  have e : (t ++ u.take (j + 1)).map Int.toNat = ((t ++ u).map Int.toNat).take (t.length + (j + 1)) := by
    rw [← List.map_take, List.take_length_add_append]
  rw [e, logits_take, List.getElem?_drop]
  congr 1
  rw [List.getLast?_eq_getElem?, List.length_take, logits_length, List.length_map, List.length_append,
    Nat.min_eq_left (by omega), List.getElem?_take_of_lt (by omega)]
  congr 1

theorem holds_reorder {m : Model} {given : Option Source} {inc : Option Int} {sources : List (List Vec)} {M : Nat}
    {st : Session} {R : List (Nat × List Int)} {order : List Nat} {a : Nat} (hI : HoldsAll m given inc sources M st R)
    (hne : R ≠ []) (ha : 0 < a ∨ given = none) (hR : ∀ r ∈ R, r.2.length = a) (ho : ∀ i ∈ order, i < R.length)
    (hk : NeedsSource m → order.length = R.length →
      ∀ (i j : Nat), order[i]? = some j → (R[j]?).map (·.1) = (R[i]?).map (·.1)) :
    ∃ st', st.reorder order = some st' ∧ HoldsAll m given inc sources M st' (order.map fun i => (R[i]?).getD (0, [])) := by
  obtain ⟨a', h2, hb⟩ := hI hne
  obtain rfl : a = a' := by
    obtain ⟨r, hr⟩ := List.exists_mem_of_ne_nil R hne
    rw [← hR r hr, (h2 r hr).1]
  obtain ⟨s', e1, e2⟩ := reorder_ok (order := order) hb ha (by simpa using ho) (by
    intro hneeds hl i j hij
    have := hk hneeds (by simpa using hl) i j hij
    rw [List.getElem?_map, List.getElem?_map]
    cases hj : R[j]? with
    | none =>
      rw [hj] at this
      cases hi : R[i]? with
      | none => rfl
      | some x => rw [hi] at this; cases this
    | some y =>
      rw [hj] at this
      cases hi : R[i]? with
      | none => rw [hi] at this; cases this
      | some x =>
        rw [hi] at this
        simp only [Option.map_some, Option.some.injEq] at this ⊢
        simp [rowOf, this])
  refine ⟨s', e1, ?_⟩
  intro _
  refine ⟨a, ?_, ?_⟩
  · intro r hr
    obtain ⟨i, hi, rfl⟩ := List.mem_map.mp hr
    rw [List.getElem?_eq_getElem (ho i hi)]
    exact h2 _ (List.getElem_mem _)
  · have : (order.map fun i => (R[i]?).getD (0, [])).map (rowOf sources) = Dec.picked (R.map (rowOf sources)) order := by
      unfold Dec.picked
      rw [List.map_map]
      apply List.map_congr_left
      intro i hi
      simp only [Function.comp, List.getElem?_map, List.getElem?_eq_getElem (ho i hi), Option.getD_some, Option.map_some]
    rw [this]
    exact e2

theorem remembers (junk : Heads) {m : Model} {limit : Nat} (hm : GoodModel m limit) {given : Option Source}
    {inc : Option Int} (hinc : ∀ c, inc = some c → 1 ≤ c) (hg : NeedsSource m → given ≠ none)
    {P : Type} (score : Vec → Option (List P)) (sources : List (List Vec)) {M : Nat} (hM : limit < M) :
    Remembers (decoderStateful m junk given inc score M)
      (fun i t => (sources[i]?).bind fun src => recomputing m score src t)
      (HoldsAll m given inc sources M) limit (fun a n => HasWindow m → a = 0 ∨ n = 1) (NeedsSource m) := by
  refine ⟨?_, ?_⟩
  · intro st R T a n hI hne hR hT hn h1 hlim hok
    obtain ⟨a', h2, hb⟩ := hI hne
    obtain rfl : a = a' := by
      obtain ⟨r, hr⟩ := List.exists_mem_of_ne_nil R hne
      rw [← hR r hr, (h2 r hr).1]
    obtain ⟨s', e1, e2⟩ := feed_ok junk hm hg hinc (by exact_mod_cast hM) (R := R.map (rowOf sources))
      (T := T.map (List.map Int.toNat)) (a := a) (n := n) (by simpa using hne)
      (by
        intro r hr
        obtain ⟨x, hx, rfl⟩ := List.mem_map.mp hr
        simp [rowOf, hR x hx])
      hb h1 (by simp [hT])
      (by
        intro t ht
        obtain ⟨x, hx, rfl⟩ := List.mem_map.mp ht
        simp [hn x hx])
      hlim hok
    have hfed : fed (R.map (rowOf sources)) (T.map (List.map Int.toNat)) = (appended R T).map (rowOf sources) := by
      unfold fed appended
      apply List.ext_getElem
      · simp
      · intro i h3 h4
        simp [rowOf]
    have hout : ((R.zip T).mapM fun x => (List.range n).mapM fun j =>
        (sources[x.1.1]?).bind fun src => recomputing m score src (x.1.2 ++ x.2.take (j + 1))) =
        (((fed (R.map (rowOf sources)) (T.map (List.map Int.toNat))).map fun r => (logits m r.src r.tokens).drop a).mapM
          fun (row : List Vec) => row.mapM score) := by
      have hz : (appended R T) = (R.zip T).map fun x => (x.1.1, x.1.2 ++ x.2) := by
        unfold appended
        apply List.ext_getElem
        · simp
        · intro i h3 h4
          simp
      rw [hfed, hz, mapM_map_eq, mapM_map_eq, mapM_map_eq]
      apply mapM_eq_congr
      rintro ⟨⟨i, t⟩, u⟩ hx
      have hx1 := (List.of_mem_zip hx).1
      have hx2 := (List.of_mem_zip hx).2
      have hi := (h2 _ hx1).2
      have hsrc : sources[i]? = some sources[i] := List.getElem?_eq_getElem hi
      simp only [rowOf, hsrc, Option.bind_some, List.getD_eq_getElem?_getD, Option.getD_some]
      rw [mapM_drop m score _ t u (hn u hx2), ← hR _ hx1]
    rw [hout]
    unfold decoderStateful
    simp only [e1, Option.bind_some]
    refine ⟨fun h => by rw [h]; rfl, ?_⟩
    intro o ho
    refine ⟨s', by rw [ho]; rfl, ?_⟩
    intro _
    refine ⟨a + n, ?_, by rw [← hfed]; exact e2⟩
    intro r hr
    unfold appended at hr
    obtain ⟨i, hi, rfl⟩ := List.getElem_of_mem hr
    have hi1 : i < R.length := by simp at hi; omega
    have hi2 : i < T.length := by simp at hi; omega
    simp only [List.getElem_zipWith, List.length_append]
    rw [hR _ (List.getElem_mem hi1), hn _ (List.getElem_mem hi2)]
    exact ⟨rfl, (h2 _ (List.getElem_mem hi1)).2⟩
  · intro st R order a hI hne ha hR ho hk
    exact holds_reorder hI hne (.inl ha) hR ho hk

/-- The sources of the prompts: there is one for each, and if the model is given the output of an encoder, it holds
them; a model that attends to an encoder is given its output. -/
structure GoodSources (m : Model) (given : Option Source) (sources : List (List Vec)) (p : Prompts) : Prop where
  length : sources.length = p.rows.length
  holds : ∀ s, given = some s → SourceInv s sources
  needs : NeedsSource m → given ≠ none

theorem holds_start {m : Model} {given : Option Source} {inc : Option Int} {sources : List (List Vec)} {p : Prompts}
    (hsrc : GoodSources m given sources p) (M : Nat) :
    HoldsAll m given inc sources M (Session.start m ⟨0, M, inc⟩) ((List.range p.rows.length).map fun i => (i, [])) := by
  intro _
  refine ⟨0, ?_, ?_⟩
  · intro r hr
    obtain ⟨i, hi, rfl⟩ := List.mem_map.mp hr
    exact ⟨rfl, by rw [hsrc.length]; exact List.mem_range.mp hi⟩
  · have hmap : ((List.range p.rows.length).map fun i => (i, ([] : List Int))).map (rowOf sources) =
        sources.map fun src => ⟨[], src⟩ := by
      apply List.ext_getElem
      · simp [hsrc.length]
      · intro i h1 h2
        have : i < sources.length := by simpa using h2
        simp [rowOf, List.getD_eq_getElem?_getD, List.getElem?_eq_getElem this]
    rw [hmap]
    refine ⟨rfl, rfl, rfl, start_inv _ _ _ _, ?_, fun _ => rfl, fun h => absurd h (by omega)⟩
    intro s hs
    have : (sources.map fun src => (⟨[], src⟩ : Row)).map Row.src = sources := by
      rw [List.map_map]
      exact List.map_id _
    rw [this]
    exact hsrc.holds s (by simpa [decoderStateful, Session.start] using hs)

private theorem cached_ok {m : Model} {g : Generator (List Vec)} (hm : GoodModel m g.settings.maxSeq) (junk : Heads)
    {score : Vec → Option (List LogP)} {V : Nat} (hscore : ∀ x q, score x = some q → q.length = V)
    (hnext : g.next = recomputing m score) {inc : Option Int} (hinc : ∀ c, inc = some c → 1 ≤ c)
    {given : Option Source} {sources : List (List Vec)} {p : Prompts} (hp : Batched p) (hpos : ∀ len ∈ p.lens, 1 ≤ len)
    (hsrc : GoodSources m given sources p) (hw : HasWindow m → g.chunk = none ∨ g.chunk = some 0 ∨ g.chunk = some 1)
    (hneeds : NeedsSource m → Picks g.topk ∧ 0 < g.settings.numGens ∧ 2 * g.settings.numGens ≤ V ∧
      ∀ l ∈ p.lens, ∀ l' ∈ p.lens, l = l') (maxGen : Nat) :
    cachedGenerate (decoderStateful m junk given inc score) g maxGen p = generate g maxGen sources p := by
  have hsz : g.Sized V := by
    intro s t q h
    rw [hnext] at h
    unfold recomputing at h
    rw [Option.bind_eq_some_iff] at h
    obtain ⟨x, -, h⟩ := h
    exact hscore x q h
  refine cached_same hsz maxGen hp hsrc.length hpos _ (HoldsAll m given inc sources)
    (fun a n => HasWindow m → a = 0 ∨ n = 1) (NeedsSource m) ?_ ?_ (fun _ _ => .inr rfl)
    (fun k b => HasWindow m → g.chunk = some 1 ∨ b = 0 ∨ k - 1 ≤ b) (fun _ _ => .inr (.inl rfl)) ?_ hneeds
  · intro lim hl
    have h1 := (limits_facts hl).2.2.2.1
    have h2 := (limits_facts hl).2.2.2.2
    have := remembers junk (hm.mono (k := lim.maxLen - 1) (by rw [h1]; dsimp only; omega)) hinc hsrc.needs score sources
      (M := lim.maxLen) (by omega)
    rw [hnext]
    exact this
  · intro M
    exact holds_start hsrc M
  · intro k b hQ hb
    unfold chunkSize
    refine ⟨?_, ?_⟩
    · intro h
      rcases hQ h with h1 | h1 | h1
      · rw [h1]
        dsimp only
        split <;> omega
      · exact .inl h1
      · omega
    · intro h
      rcases hw h with h1 | h1 | h1
      · rw [h1]
        dsimp only
        exact .inr (.inr (by omega))
      · rw [h1]
        dsimp only
        rw [if_neg (by simp)]
        exact .inr (.inr (by omega))
      · exact .inl h1

/-- **Language models.** Beam search with a decoder that keeps a state bag — it is fed with pieces of the prompts and
then with the last token of every sequence, and the bag is reordered with the sequences — gives the hypotheses of beam
search in which the log probabilities after a sequence are those of decoding this sequence on its own from its first
token. That holds for any prompts, of equal length or not, any step processors and any step of the bag's capacity. With
sliding windows the prompts must not be fed in chunks of more than one token.

Missing for the full property: the attention biases that `GoodModel` leaves out, and windows with larger chunks. -/
theorem C107_language_partial {m : Model} {g : Generator (List Vec)} (hm : GoodModel m g.settings.maxSeq)
    (hlm : ¬ NeedsSource m) (junk : Heads) {score : Vec → Option (List LogP)} {V : Nat}
    (hscore : ∀ x q, score x = some q → q.length = V) (hnext : g.next = recomputing m score) {inc : Option Int}
    (hinc : ∀ c, inc = some c → 1 ≤ c) {p : Prompts} (hp : Batched p) (hpos : ∀ len ∈ p.lens, 1 ≤ len)
    (hw : HasWindow m → g.chunk = none ∨ g.chunk = some 0 ∨ g.chunk = some 1) (maxGen : Nat) :
    cachedGenerate (decoderStateful m junk none inc score) g maxGen p = generate g maxGen (p.rows.map fun _ => []) p :=
  cached_ok hm junk hscore hnext hinc hp hpos ⟨by simp, by simp, fun h => absurd h hlm⟩ hw (fun h => absurd h hlm) maxGen

/-- **Encoder-decoder models.** The same for a model that attends to the output of an encoder, with a source for every
prompt, when the prompts have the same length and the vocabulary has at least twice as many entries as the beam.

Missing for the full property: prompts of different lengths (`C107_source_lost`) and smaller vocabularies; besides what
is missing in `C107_language_partial`. -/
theorem C107_source_partial {m : Model} {g : Generator (List Vec)} (hm : GoodModel m g.settings.maxSeq)
    (junk : Heads) {score : Vec → Option (List LogP)} {V : Nat}
    (hscore : ∀ x q, score x = some q → q.length = V) (hnext : g.next = recomputing m score) {inc : Option Int}
    (hinc : ∀ c, inc = some c → 1 ≤ c) {given : Source} {sources : List (List Vec)} {p : Prompts} (hp : Batched p)
    (hpos : ∀ len ∈ p.lens, 1 ≤ len) (hlen : sources.length = p.rows.length) (hsrc : SourceInv given sources)
    (hw : HasWindow m → g.chunk = none ∨ g.chunk = some 0 ∨ g.chunk = some 1)
    (htop : ∀ k vs l, g.topk k vs = some l → l.length = k ∧ l.Nodup) (hbeam : 0 < g.settings.numGens)
    (hV : 2 * g.settings.numGens ≤ V) (hsame : ∀ l ∈ p.lens, ∀ l' ∈ p.lens, l = l') (maxGen : Nat) :
    cachedGenerate (decoderStateful m junk (some given) inc score) g maxGen p = generate g maxGen sources p :=
  cached_ok hm junk hscore hnext hinc hp hpos ⟨hlen, fun s h => by cases h; exact hsrc, by simp⟩ hw
    (fun _ => ⟨htop, hbeam, hV, hsame⟩) maxGen

/-- **Memory does not matter.** The hypotheses of a language model depend neither on what fresh memory holds, nor on the
steps in which the capacity of the caches grows, nor, without windows, on the size of the chunks in which the prompts are
fed. -/
theorem C107_memory_partial {m : Model} {g : Generator (List Vec)} (hm : GoodModel m g.settings.maxSeq)
    (hlm : ¬ NeedsSource m) (hw : ¬ HasWindow m) (junk junk' : Heads) {score : Vec → Option (List LogP)} {V : Nat}
    (hscore : ∀ x q, score x = some q → q.length = V) {inc inc' : Option Int} (hinc : ∀ c, inc = some c → 1 ≤ c)
    (hinc' : ∀ c, inc' = some c → 1 ≤ c) {p : Prompts} (hp : Batched p) (hpos : ∀ len ∈ p.lens, 1 ≤ len)
    (chunk : Option Nat) (maxGen : Nat) :
    cachedGenerate (decoderStateful m junk none inc score) g maxGen p =
      cachedGenerate (decoderStateful m junk' none inc' score) { g with chunk := chunk } maxGen p := by
  have h1 := C107_language_partial (g := { g with next := recomputing m score }) hm hlm junk hscore rfl hinc hp hpos
    (fun h => absurd h hw) maxGen
  have h2 := C107_language_partial (g := { g with next := recomputing m score, chunk := chunk }) hm hlm junk' hscore rfl hinc'
    hp hpos (fun h => absurd h hw) maxGen
  have h3 : generate { g with next := recomputing m score, chunk := chunk } maxGen (p.rows.map fun _ => []) p =
      generate { g with next := recomputing m score } maxGen (p.rows.map fun _ => []) p := by
    unfold generate
    simp only [prepare_rows]
    rfl
  exact h1.trans (h3.symm.trans h2.symm)

private theorem same_limits (c : Settings) {rows : List (List Int)} {L : Nat} (hne : rows ≠ [])
    (hL : ∀ row ∈ rows, row.length = L) :
    limits c ⟨L, rows, rows.map (·.length)⟩ = if c.minGen < 1 then none
      else if c.maxGen < 1 then none
      else if c.maxGen < c.minGen then none
      else if c.maxSeq ≤ L then none
      else some ⟨L, L, min c.maxSeq (L + c.minGen), min c.maxSeq (L + c.maxGen)⟩ := by
  have hmap : rows.map (·.length) = List.replicate rows.length L := by
    rw [List.eq_replicate_iff]
    refine ⟨by simp, ?_⟩
    intro x hx
    obtain ⟨row, hr, rfl⟩ := List.mem_map.mp hx
    exact hL row hr
  have hpos : 0 < rows.length := List.length_pos_iff.mpr hne
  obtain ⟨n, hn⟩ : ∃ n, rows.length = n + 1 := ⟨rows.length - 1, by omega⟩
  have h1 : ∀ k, (List.replicate k L).foldl min L = L := by
    intro k
    induction k with
    | zero => rfl
    | succ k ih => rw [List.replicate_succ, List.foldl_cons, Nat.min_self, ih]
  have h2 : ∀ k, (List.replicate k L).foldl max L = L := by
    intro k
    induction k with
    | zero => rfl
    | succ k ih => rw [List.replicate_succ, List.foldl_cons, Nat.max_self, ih]
  have hmin : (⟨L, rows, rows.map (·.length)⟩ : Prompts).minLen = L := by
    unfold Prompts.minLen
    dsimp only
    rw [hmap, hn, List.replicate_succ, List.foldl_cons, List.headD_cons, Nat.min_self, h1]
  have hmax : (⟨L, rows, rows.map (·.length)⟩ : Prompts).maxLen = L := by
    unfold Prompts.maxLen
    dsimp only
    rw [hmap, hn, List.replicate_succ, List.foldl_cons, Nat.zero_max, h2]
  unfold limits
  rw [hmin, hmax]

/-- **Company.** The hypotheses of a language model for a batch of prompts of equal length are for every prompt those that
it gives for this prompt alone, although the sequences of all prompts share the state bag. -/
theorem C107_alone_partial {m : Model} {g : Generator (List Vec)} (hm : GoodModel m g.settings.maxSeq)
    (hlm : ¬ NeedsSource m) (junk : Heads) {score : Vec → Option (List LogP)} {V : Nat}
    (hscore : ∀ x q, score x = some q → q.length = V) {inc : Option Int}
    (hinc : ∀ c, inc = some c → 1 ≤ c) {rows : List (List Int)} {L : Nat} (hne : rows ≠ []) (hL : ∀ row ∈ rows, row.length = L)
    (h1 : 1 ≤ L) (hw : HasWindow m → g.chunk = none ∨ g.chunk = some 0 ∨ g.chunk = some 1) (maxGen : Nat) :
    cachedGenerate (decoderStateful m junk none inc score) g maxGen ⟨L, rows, rows.map (·.length)⟩ =
      rows.mapM fun row =>
        (cachedGenerate (decoderStateful m junk none inc score) g maxGen ⟨L, [row], [row.length]⟩).bind (·.head?) := by
  let g' : Generator (List Vec) := { g with next := recomputing m score }
  have hsz : g'.Sized V := by
    intro s t q h
    obtain ⟨x, -, h⟩ := Option.bind_eq_some_iff.mp h
    exact hscore x q h
  have hB : ∀ rs : List (List Int), rs ≠ [] → (∀ row ∈ rs, row.length = L) → Batched ⟨L, rs, rs.map (·.length)⟩ := by
    intro rs h2 h3
    refine ⟨h2, by simp, h3, ?_⟩
    intro len hl
    obtain ⟨row, hr, rfl⟩ := List.mem_map.mp hl
    exact Nat.le_of_eq (h3 row hr)
  have hgen : ∀ rs : List (List Int), rs ≠ [] → (∀ row ∈ rs, row.length = L) →
      cachedGenerate (decoderStateful m junk none inc score) g maxGen ⟨L, rs, rs.map (·.length)⟩ =
        generate g' maxGen (rs.map fun _ => []) ⟨L, rs, rs.map (·.length)⟩ := by
    intro rs h2 h3
    refine C107_language_partial (g := g') hm hlm junk hscore rfl hinc (hB rs h2 h3) ?_ hw maxGen
    intro len hl
    obtain ⟨row, hr, rfl⟩ := List.mem_map.mp hl
    rw [h3 row hr]
    exact h1
  have hlim : ∀ rs : List (List Int), rs ≠ [] → (∀ row ∈ rs, row.length = L) →
      limits { g'.settings with maxGen := maxGen } ⟨L, rs, rs.map (·.length)⟩ =
        limits { g'.settings with maxGen := maxGen } ⟨L, rows, rows.map (·.length)⟩ := by
    intro rs h2 h3
    rw [same_limits _ h2 h3, same_limits _ hne hL]
  rw [hgen rows hne hL]
  have hone : ∀ row ∈ rows, cachedGenerate (decoderStateful m junk none inc score) g maxGen ⟨L, [row], [row.length]⟩ =
      generate g' maxGen [[]] ⟨L, [row], [row.length]⟩ := fun row hr =>
    hgen [row] (by simp) (by intro r h; rw [List.mem_singleton] at h; rw [h]; exact hL row hr)
  cases hl : limits { g'.settings with maxGen := maxGen } ⟨L, rows, rows.map (·.length)⟩ with
  | none =>
    have h2 : generate g' maxGen (rows.map fun _ => []) ⟨L, rows, rows.map (·.length)⟩ = none := by
      unfold generate
      rw [hl]
      rfl
    rw [h2]
    cases rows with
    | nil => exact absurd rfl hne
    | cons row rows =>
      have hr : row.length = L := hL row (by simp)
      have h3 := hlim [row] (by simp) (by intro r h; rw [List.mem_singleton] at h; rw [h]; exact hr)
      rw [hl] at h3
      have h4 : generate g' maxGen [[]] ⟨L, [row], [row.length]⟩ = none := by
        unfold generate
        rw [show limits { g'.settings with maxGen := maxGen } ⟨L, [row], [row.length]⟩ = none from h3]
        rfl
      rw [List.mapM_cons, hone row (by simp), h4]
      rfl
  | some lim =>
    rw [generate_solo hsz maxGen _ (hB rows hne hL) (by simp) hl]
    have hz : (rows.map fun _ => ([] : List Vec)).zip (List.zipWith (fun row len => List.take len row) rows
        (rows.map (·.length))) = rows.map fun row => ([], row) := by
      apply List.ext_getElem
      · simp
      · intro i h3 h4
        simp
    rw [hz, mapM_map_eq]
    apply mapM_eq_congr
    intro row hr
    have hrs : ∀ r ∈ [row], r.length = L := by
      intro r h
      rw [List.mem_singleton] at h
      rw [h]
      exact hL row hr
    have h3 := hlim [row] (by simp) hrs
    rw [hl] at h3
    have h4 : generate g' maxGen [[]] ⟨L, [row], [row.length]⟩ = _ :=
      generate_solo hsz maxGen [[]] (hB [row] (by simp) hrs) (by simp) h3
    rw [hone row hr, h4]
    simp only [List.map_cons, List.map_nil, List.zipWith_cons_cons, List.zipWith_nil_left, List.zip_cons_cons, List.zip_nil_left,
      List.mapM_cons, List.mapM_nil, Option.bind_eq_bind, Option.pure_def, List.take_length]
    cases solo g' { g'.settings with maxGen := maxGen } lim [] row <;> rfl

/-! ### Prompts of different lengths and an encoder -/

/-- A decoder that looks only at its encoder-decoder attention, whose keys and values are the sources of the sequences:
they are cached in the first call and reordered with the bag. -/
def watcher (table : Nat → List LogP) (sources : List Nat) : Stateful LogP (Static Nat) where
  start := ⟨⟨[1], 1, sources.map fun s => [s]⟩, ⟨[1], 1, sources.map fun s => [s]⟩⟩
  feed := fun st tokens => some (List.zipWith (fun row t => t.map fun _ => table (row.headD 0)) st.get.2.rows tokens, st)
  reorder := Static.reorder

/-- The log probabilities of four tokens for three sources. -/
def preferences : Nat → List LogP
  | 0 => [((-9 : ℚ) : LogP), ((0 : ℚ) : LogP), ((-5 : ℚ) : LogP), ((-6 : ℚ) : LogP)]
  | 1 => [((-9 : ℚ) : LogP), ((-4 : ℚ) : LogP), ((-1 : ℚ) : LogP), ((-8 : ℚ) : LogP)]
  | _ => [((-9 : ℚ) : LogP), ((-4 : ℚ) : LogP), ((-8 : ℚ) : LogP), ((-1 : ℚ) : LogP)]

/-- Beam search with two beams over four tokens. -/
def twoBeams : Generator Nat :=
  { greedy Nat (fun s _ => some (preferences s)) with
    settings := { (greedy Nat fun _ _ => none).settings with numGens := 2 } }

/-- **The source is lost.** With prompts of different lengths, the number of sequences may stay the same in a step
although they belong to other prompts: here the two beams of the first prompt end in the step in which the other two
prompts get their second beam. The encoder-decoder attention then ignores the new order (`C51_ignored`), and the second
prompt is continued with the source of the first: its best hypothesis is `[2, 1]` instead of `[1]`. -/
theorem C107_source_lost : ∃ (table : Nat → List LogP) (g : Generator Nat) (p : Prompts),
    g.Sized 4 ∧ Batched p ∧ (∀ len ∈ p.lens, 1 ≤ len) ∧ g.next = (fun s _ => some (table s)) ∧
    (cachedGenerate (fun _ => watcher table [0, 1, 2]) g 3 p).map (List.map (List.map (·.seq))) =
      some [[[2, 1], [3, 1]], [[2, 1], [1]], [[1], [3, 1]]] ∧
    (generate g 3 [0, 1, 2] p).map (List.map (List.map (·.seq))) =
      some [[[2, 1], [3, 1]], [[1], [2, 1]], [[1], [3, 1]]] := by
  refine ⟨preferences, twoBeams, ⟨2, [[3, 0], [3, 2], [3, 2]], [1, 2, 2]⟩, ?_, ⟨by decide, by decide, by decide, by decide⟩,
    by decide, rfl, by decide +kernel, by decide +kernel⟩
  intro s t q h
  cases h
  unfold preferences
  split <;> rfl

/-- With prompts of equal length the same model gives the same hypotheses. -/
example : (cachedGenerate (fun _ => watcher preferences [0, 1, 2]) twoBeams 3 ⟨2, [[3, 2], [3, 2], [3, 2]], [2, 2, 2]⟩).map
      (List.map (List.map (·.seq))) =
    (generate twoBeams 3 [0, 1, 2] ⟨2, [[3, 2], [3, 2], [3, 2]], [2, 2, 2]⟩).map (List.map (List.map (·.seq))) := by
  decide +kernel

/-! ### Models that the theorems speak of -/

/-- Log probabilities of four tokens that depend on the logits. -/
noncomputable def leaning (x : Vec) : Option (List LogP) :=
  some (if x 0 < 2 then [((-4 : ℚ) : LogP), ((-2 : ℚ) : LogP), ((-3 : ℚ) : LogP), ((-1 : ℚ) : LogP)]
    else [((-4 : ℚ) : LogP), ((-1 : ℚ) : LogP), ((-2 : ℚ) : LogP), ((-3 : ℚ) : LogP)])

theorem leaning_sized : ∀ x q, leaning x = some q → q.length = 4 := by
  intro x q h
  cases h
  split <;> rfl

/-- Two prompts of different lengths, for `C107_language_partial` and `C107_memory_partial`. -/
example (junk : Heads) : cachedGenerate (decoderStateful (averaging (.causal none) .full none) junk none (some 2) leaning)
      (greedy (List Vec) (recomputing (averaging (.causal none) .full none) leaning)) 3 ⟨3, [[2, 0, 0], [2, 3, 2]], [1, 3]⟩ =
    generate (greedy (List Vec) (recomputing (averaging (.causal none) .full none) leaning)) 3 [[], []]
      ⟨3, [[2, 0, 0], [2, 3, 2]], [1, 3]⟩ :=
  C107_language_partial (V := 4) (averaging_good .causal (by simp) 10) (by simp [NeedsSource, averaging]) junk leaning_sized rfl
    (by simp) ⟨by decide, by decide, by decide, by decide⟩ (by decide)
    (by
      rintro ⟨L, hL, h⟩
      simp [averaging] at hL
      subst hL
      exact absurd rfl h) 3

/-- A window of two positions and prompts of three tokens fed at once, for `C107_alone_partial`. -/
example (junk : Heads) : cachedGenerate (decoderStateful (averaging (.causal (some 2)) (.window 2) none) junk none none leaning)
      { greedy (List Vec) (fun _ _ => none) with chunk := none } 3 ⟨3, [[2, 3, 3], [2, 3, 2]], [3, 3]⟩ =
    [[2, 3, 3], [2, 3, 2]].mapM fun row =>
      (cachedGenerate (decoderStateful (averaging (.causal (some 2)) (.window 2) none) junk none none leaning)
        { greedy (List Vec) (fun _ _ => none) with chunk := none } 3 ⟨3, [row], [row.length]⟩).bind (·.head?) :=
  C107_alone_partial (V := 4) (averaging_good (.window 2 (by decide)) (by simp) 10) (by simp [NeedsSource, averaging]) junk
    leaning_sized (by simp) (by decide) (by decide) (by decide) (fun _ => .inl rfl) 3

/-- The indices of the largest values. -/
def biggest (k : Nat) (vs : List LogP) : Option (List Nat) :=
  if k ≤ vs.length then some ((sortDesc (fun i => vs.getD i ⊥) (List.range vs.length)).take k) else none

theorem biggest_picks : ∀ k vs l, biggest k vs = some l → l.length = k ∧ l.Nodup := by
  intro k vs l h
  unfold biggest at h
  split at h
  · rename_i hk
    cases h
    have hp := sortDesc_perm (fun i => vs.getD i ⊥) (List.range vs.length)
    refine ⟨?_, (List.take_sublist _ _).nodup (hp.nodup_iff.mpr List.nodup_range)⟩
    rw [List.length_take, hp.length_eq, List.length_range]
    exact Nat.min_eq_left hk
  · cases h

/-- Two sources of different lengths and two beams, for `C107_source_partial`. -/
example (junk : Heads) :
    let m := averaging (.causal none) .full (some (averager .identity .full, bareBlock))
    let g : Generator (List Vec) := { greedy (List Vec) (recomputing m leaning) with
      settings := { (greedy Nat fun _ _ => none).settings with numGens := 2 }, topk := biggest }
    cachedGenerate (decoderStateful m junk (some twoSources) (some 1) leaning) g 3 ⟨2, [[3, 2], [3, 2]], [2, 2]⟩ =
      generate g 3 [[fun _ => 1, fun _ => 2], [fun _ => 3]] ⟨2, [[3, 2], [3, 2]], [2, 2]⟩ :=
  C107_source_partial (V := 4)
    (averaging_good .causal (by rintro m k h; simp at h; obtain ⟨rfl, rfl⟩ := h; exact ⟨rfl, rfl⟩) 10) junk leaning_sized rfl
    (by simp) ⟨by decide, by decide, by decide, by decide⟩ (by decide) rfl twoSources_inv
    (by
      rintro ⟨L, hL, h⟩
      simp [averaging] at hL
      subst hL
      exact absurd rfl h) biggest_picks (by decide) (by decide) (by decide) 3

end Fs2.Props
