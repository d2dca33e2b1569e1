import Verif.Tokenizer.Lemmas

/-!
# C99: tokenizers

What users of tokenizers rely on: text is framed as the mode says, tokens and indices agree,
decoding undoes encoding, and the indices of special tokens are the ones models were trained with.
-/

namespace Fs2.Props
open Fs2.Tok

/-! ## What the SentencePiece library promises -/

/-- The library gives each piece of a text the index under which it knows the piece. -/
def CutsByIndex (p : Proto) (lib : Lib) : Prop :=
  (∀ text, ∀ s ∈ lib.encode text, s.id = p.tokenToIndex s.token)
    ∧ ∀ draw text, ∀ s ∈ lib.sample draw text, s.id = p.tokenToIndex s.token

/-- A token is a control symbol of the model. -/
def Controls (p : Proto) (t : String) : Prop := ⟨t, .control⟩ ∈ p.pieces

/-- Control symbols leave no trace in decoded text. -/
def DropsControls (p : Proto) (lib : Lib) : Prop :=
  ∀ a b t, Controls p t → lib.decode (a ++ t :: b) = lib.decode (a ++ b)

/-- A library and a model that keep these promises: letters are pieces. -/
def tinyProto : Proto :=
  ⟨[⟨"<unk>", .unknown⟩, ⟨"<s>", .control⟩, ⟨"</s>", .control⟩, ⟨"a", .normal⟩, ⟨"b", .normal⟩],
    "<unk>", "<s>", "</s>", "<pad>"⟩

def tinyLib : Lib where
  encode text := if text = "ab" then [⟨3, "a"⟩, ⟨4, "b"⟩] else []
  sample _ text := if text = "ab" then [⟨3, "a"⟩, ⟨4, "b"⟩] else []
  decode tokens := String.join (tokens.filter (fun t => t ≠ "<s>" ∧ t ≠ "</s>"))

theorem tiny_cuts : CutsByIndex tinyProto tinyLib := by
  have h3 : tinyProto.tokenToIndex "a" = 3 := by decide +kernel
  have h4 : tinyProto.tokenToIndex "b" = 4 := by decide +kernel
  constructor
  · intro text s hs
    simp only [tinyLib] at hs
    split at hs
    · simp only [List.mem_cons, List.not_mem_nil, or_false] at hs
      rcases hs with rfl | rfl
      · exact h3.symm
      · exact h4.symm
    · simp at hs
  · intro _ text s hs
    simp only [tinyLib] at hs
    split at hs
    · simp only [List.mem_cons, List.not_mem_nil, or_false] at hs
      rcases hs with rfl | rfl
      · exact h3.symm
      · exact h4.symm
    · simp at hs

theorem tiny_drops : DropsControls tinyProto tinyLib := by
  intro a b t ht
  have : t = "<s>" ∨ t = "</s>" := by
    simpa [Controls, tinyProto] using ht
  have hf : decide (t ≠ "<s>" ∧ t ≠ "</s>") = false := by
    rcases this with rfl | rfl <;> simp
  simp only [tinyLib, List.filter_append, List.filter_cons, hf, Bool.false_eq_true, if_false]

theorem tiny_loads : tinyProto.loads := by decide +kernel

/-! ## Encoding and decoding -/

/-- **C99.** The encoder gives the indices of the prefix tokens, then those of the pieces of the
text, then those of the suffix tokens; backwards if asked to. -/
theorem C99_encode (p : Proto) (lib : Lib) (e : SpEncoder) (draw : Nat) (text : String) :
    let pieces := if e.sampling then lib.sample draw text else lib.encode text
    let whole := e.prefixTokens.map p.tokenToIndex ++ pieces.map (·.id)
      ++ e.suffixTokens.map p.tokenToIndex
    e.call p lib draw text = if e.reverse then whole.reverse else whole :=
  spCall_eq p lib e draw text

example : ({ prefixTokens := ["<s>"], suffixTokens := ["</s>"], reverse := true } :
    SpEncoder).call tinyProto tinyLib 0 "ab" = [2, 4, 3, 1] := by decide +kernel

/-- **C99.** `prefix_indices` and `suffix_indices` are what encoded text starts and ends with; they
are `None` exactly if there are no such tokens. -/
theorem C99_ends (p : Proto) (lib : Lib) (e : SpEncoder) (draw : Nat) (text : String)
    (hr : e.reverse = false) :
    (e.prefixIndices p).getD [] <+: e.call p lib draw text
    ∧ (e.suffixIndices p).getD [] <:+ e.call p lib draw text
    ∧ (e.prefixIndices p = none ↔ e.prefixTokens = [])
    ∧ (e.suffixIndices p = none ↔ e.suffixTokens = []) := by
  have h := C99_encode p lib e draw text
  simp only [hr, Bool.false_eq_true, if_false] at h
  have h1 : (e.prefixIndices p).getD [] = e.prefixTokens.map p.tokenToIndex := by
    cases hp : e.prefixTokens <;> simp [SpEncoder.prefixIndices, hp]
  have h2 : (e.suffixIndices p).getD [] = e.suffixTokens.map p.tokenToIndex := by
    cases hp : e.suffixTokens <;> simp [SpEncoder.suffixIndices, hp]
  refine ⟨?_, ?_, ?_, ?_⟩
  · rw [h, h1, List.append_assoc]; exact List.prefix_append _ _
  · rw [h, h2]; exact List.suffix_append _ _
  · cases hp : e.prefixTokens <;> simp [SpEncoder.prefixIndices, hp]
  · cases hp : e.suffixTokens <;> simp [SpEncoder.suffixIndices, hp]

example : ({ prefixTokens := ["<s>"] } : SpEncoder).prefixIndices tinyProto = some [1] := by
  decide +kernel

/-- **C99.** `encode_as_tokens` and the call agree: looking up the tokens gives the indices. -/
theorem C99_tokens (p : Proto) (lib : Lib) (hl : CutsByIndex p lib) (e : SpEncoder) (draw : Nat)
    (text : String) :
    (e.asTokens lib draw text).map p.tokenToIndex = e.call p lib draw text := by
  have hids : (e.pieces lib draw text).map (·.id)
      = ((e.pieces lib draw text).map (·.token)).map p.tokenToIndex := by
    rw [List.map_map]
    apply List.map_congr_left
    intro s hs
    unfold SpEncoder.pieces at hs
    split at hs
    · exact hl.2 draw text s hs
    · exact hl.1 text s hs
  rw [spCall_eq, hids]
  unfold SpEncoder.asTokens
  simp only
  split <;> simp [*, List.map_reverse]

example : CutsByIndex tinyProto tinyLib := tiny_cuts

theorem decode_controls {p : Proto} {lib : Lib} (hd : DropsControls p lib) (a b c : List String)
    (ha : ∀ t ∈ a, Controls p t) (hc : ∀ t ∈ c, Controls p t) :
    lib.decode (a ++ b ++ c) = lib.decode b := by
  have h1 : ∀ (a x : List String), (∀ t ∈ a, Controls p t) →
      lib.decode (a ++ x) = lib.decode x := by
    intro a
    induction a with
    | nil => intro x _; rfl
    | cons t a ih =>
      intro x h
      have := hd [] (a ++ x) t (h t (by simp))
      simp only [List.nil_append] at this
      rw [List.cons_append, this]
      exact ih x (fun t ht => h t (by simp [ht]))
  have h2 : ∀ (c x : List String), (∀ t ∈ c, Controls p t) →
      lib.decode (x ++ c) = lib.decode x := by
    intro c
    induction c with
    | nil => intro x _; simp
    | cons t c ih =>
      intro x h
      rw [hd x c t (h t (by simp))]
      exact ih x (fun t ht => h t (by simp [ht]))
  rw [h2 _ _ hc, h1 _ _ ha]

/-- **C99.** Decoding undoes encoding.  If the framing tokens are control symbols of the model and
the model knows every piece of the text, then decoding the indices, in the same direction, gives
what the library makes of the pieces alone; the frame is gone. -/
theorem C99_round_trip (p : Proto) (lib : Lib) (hp : p.loads) (hsize : p.pieces.length < 2 ^ 31)
    (hd : DropsControls p lib) (e : SpEncoder) (draw : Nat) (text : String)
    (hpre : ∀ t ∈ e.prefixTokens, Controls p t) (hsuf : ∀ t ∈ e.suffixTokens, Controls p t)
    (hknown : ∀ s ∈ (if e.sampling then lib.sample draw text else lib.encode text),
      ∃ k, p.pieces[s.id]? = some ⟨s.token, k⟩) :
    spDecode p lib e.reverse ((e.call p lib draw text).map Int.ofNat)
      = .ok (lib.decode ((if e.sampling then lib.sample draw text
          else lib.encode text).map (·.token))) := by
  have hcall := C99_encode p lib e draw text
  simp only at hcall
  generalize hpieces : (if e.sampling then lib.sample draw text else lib.encode text) = pieces
    at hcall hknown ⊢
  generalize hwhole : e.prefixTokens.map p.tokenToIndex ++ pieces.map (·.id)
    ++ e.suffixTokens.map p.tokenToIndex = whole at hcall
  have hread : (if e.reverse then ((e.call p lib draw text).map Int.ofNat).reverse
      else (e.call p lib draw text).map Int.ofNat) = whole.map Int.ofNat := by
    rw [hcall]
    cases e.reverse <;> simp
  rw [spDecode_eq, hread, mapOk_map]
  have hone : ∀ {i : Nat} {q : Piece}, p.pieces[i]? = some q →
      p.indexToToken32 (wrap32 (Int.ofNat i)) = .ok q.text := by
    intro i q hi
    have hlt := (List.getElem?_eq_some_iff.1 hi).1
    have : wrap32 (Int.ofNat i) = (i : Int) := wrap32_nat (by omega)
    rw [this]
    exact indexToToken32_ok hi
  have hctl : ∀ t, Controls p t → p.pieces[p.tokenToIndex t]? = some ⟨t, .control⟩ := by
    intro t ht
    obtain ⟨i, hi⟩ := List.mem_iff_getElem?.1 ht
    rw [show p.tokenToIndex t = i from tokenToIndex_reserved hp hi rfl]
    exact hi
  have hok : mapOk (fun i => p.indexToToken32 (wrap32 (Int.ofNat i))) whole
      = .ok (e.prefixTokens ++ pieces.map (·.token) ++ e.suffixTokens) := by
    have hg : ∀ (l : List String), (∀ t ∈ l, Controls p t) →
        ∀ i ∈ l.map p.tokenToIndex, ∃ q, p.pieces[i]? = some q := by
      intro l hl i hi
      obtain ⟨t, ht, rfl⟩ := List.mem_map.1 hi
      exact ⟨_, hctl t (hl t ht)⟩
    have hall : ∀ i ∈ whole, ∃ q, p.pieces[i]? = some q := by
      intro i hi
      rw [← hwhole, List.mem_append, List.mem_append] at hi
      rcases hi with (hi | hi) | hi
      · exact hg _ hpre i hi
      · obtain ⟨s, hs, rfl⟩ := List.mem_map.1 hi
        obtain ⟨k, hk⟩ := hknown s hs
        exact ⟨_, hk⟩
      · exact hg _ hsuf i hi
    rw [mapOk_ok (g := fun i => ((p.pieces[i]?).getD ⟨"", .normal⟩).text)]
    · congr 1
      rw [← hwhole]
      simp only [List.map_append, List.map_map]
      congr 1
      · congr 1
        · conv => rhs; rw [← List.map_id e.prefixTokens]
          apply List.map_congr_left
          intro t ht
          simp [hctl t (hpre t ht)]
        · apply List.map_congr_left
          intro s hs
          obtain ⟨k, hk⟩ := hknown s hs
          simp [hk]
      · conv => rhs; rw [← List.map_id e.suffixTokens]
        apply List.map_congr_left
        intro t ht
        simp [hctl t (hsuf t ht)]
    · intro i hi
      obtain ⟨q, hq⟩ := hall i hi
      rw [hone hq, hq]
      rfl
  rw [hok]
  simp only
  rw [decode_controls hd _ _ _ hpre hsuf]

example : tinyProto.loads ∧ DropsControls tinyProto tinyLib
    ∧ (∀ t ∈ ["<s>"], Controls tinyProto t)
    ∧ ∀ s ∈ tinyLib.encode "ab", ∃ k, tinyProto.pieces[s.id]? = some ⟨s.token, k⟩ :=
  ⟨tiny_loads, tiny_drops, by simp [Controls, tinyProto], by
    intro s hs
    simp only [tinyLib, if_true, List.mem_cons, List.not_mem_nil, or_false] at hs
    rcases hs with rfl | rfl <;> exact ⟨.normal, by simp [tinyProto]⟩⟩

/-- **C99.** The same with tokens in place of indices, where unknown pieces survive too. -/
theorem C99_round_trip_tokens (p : Proto) (lib : Lib) (hd : DropsControls p lib) (e : SpEncoder)
    (draw : Nat) (text : String)
    (hpre : ∀ t ∈ e.prefixTokens, Controls p t) (hsuf : ∀ t ∈ e.suffixTokens, Controls p t) :
    spDecodeTokens lib e.reverse (e.asTokens lib draw text)
      = lib.decode ((if e.sampling then lib.sample draw text
          else lib.encode text).map (·.token)) := by
  have : (if e.reverse then (e.asTokens lib draw text).reverse else e.asTokens lib draw text)
      = e.prefixTokens ++ (e.pieces lib draw text).map (·.token) ++ e.suffixTokens := by
    unfold SpEncoder.asTokens
    cases e.reverse <;> simp
  unfold spDecodeTokens
  rw [this, decode_controls hd _ _ _ hpre hsuf]
  rfl

/-- **C99.** Of the indices that fit 32 bits `index_to_token` takes exactly those of the
vocabulary, and it undoes `token_to_index` on control symbols.
`_partial`: larger indices are not refused, see `C99_index_wraps`. -/
theorem C99_index_partial (p : Proto) (hp : p.loads) :
    (∀ i : Int, -2 ^ 31 ≤ i → i < 2 ^ 31 →
      ((∃ t, p.indexToToken i = .ok t) ↔ 0 ≤ i ∧ i < p.pieces.length))
    ∧ ∀ t, Controls p t → p.pieces.length < 2 ^ 31 →
      p.indexToToken (p.tokenToIndex t) = .ok t := by
  constructor
  · intro i h1 h2
    have hw : wrap32 i = i := by unfold wrap32; omega
    simp only [Proto.indexToToken, hw, Proto.indexToToken32]
    split
    · rename_i h
      constructor
      · rintro ⟨t, ht⟩; cases ht
      · intro h'; omega
    · rename_i h
      cases hq : p.pieces[i.toNat]? with
      | none =>
        have := List.getElem?_eq_none_iff.1 hq
        constructor
        · rintro ⟨t, ht⟩; cases ht
        · intro h'; omega
      | some q =>
        have := (List.getElem?_eq_some_iff.1 hq).1
        exact ⟨fun _ => by omega, fun _ => ⟨q.text, rfl⟩⟩
  · intro t ht hsize
    obtain ⟨i, hi⟩ := List.mem_iff_getElem?.1 ht
    have hlt := (List.getElem?_eq_some_iff.1 hi).1
    rw [show p.tokenToIndex t = i from tokenToIndex_reserved hp hi rfl, Proto.indexToToken,
      wrap32_nat (by omega)]
    exact indexToToken32_ok hi

example : tinyProto.loads ∧ Controls tinyProto "</s>" :=
  ⟨tiny_loads, by simp [Controls, tinyProto]⟩

/-- **C99, violation.** An index outside the vocabulary is not always refused: 64-bit indices are
cut to 32 bits first, so 2³² + 3 is taken for 3, by `index_to_token` and by the decoder. -/
theorem C99_index_wraps (p : Proto) (lib : Lib) (i k : Int) :
    p.indexToToken (i + 4294967296 * k) = p.indexToToken i
    ∧ spDecode p lib false [i + 4294967296 * k] = spDecode p lib false [i] := by
  have hw : wrap32 (i + 4294967296 * k) = wrap32 i := by unfold wrap32; omega
  constructor
  · simp [Proto.indexToToken, hw]
  · rw [spDecode_eq, spDecode_eq]
    simp [mapOk, hw]

example : tinyProto.indexToToken 4294967299 = .ok "a" ∧ tinyProto.pieces.length = 5 :=
  ⟨((C99_index_wraps tinyProto tinyLib 3 1).1).trans rfl, rfl⟩

/-! ## The indices of special tokens -/

/-- **C99.** Loading a model with control symbols, one of them `<pad>@0`: the padding symbol gets
index 0, every piece of the model moves up by one, and the other symbols follow in their order. -/
theorem C99_pad_first (p m : Proto) (a b : List String)
    (ha : ∀ s ∈ a ++ b, s ≠ "" ∧ s ≠ "<pad>" ∧ s ≠ "<pad>@0")
    (hm : loadSp p (a ++ "<pad>@0" :: b) = .ok m) :
    m.vocabInfo.size = p.pieces.length + (a ++ b).length + 1
    ∧ m.tokenToIndex "<pad>" = 0
    ∧ (p.eosPiece ≠ "<pad>" → m.vocabInfo.pad = some 0)
    ∧ (∀ (i : Nat) q, p.pieces[i]? = some q → m.indexToToken32 ((i + 1 : Nat) : Int) = .ok q.text)
    ∧ (∀ i q, p.pieces[i]? = some q → q.kind.reserved → m.tokenToIndex q.text = i + 1)
    ∧ (∀ i q, p.pieces[i]? = some q → (∀ q' ∈ p.pieces, q'.kind.reserved → q'.text ≠ q.text) →
        q.text ∉ "<pad>" :: (a ++ b) → m.tokenToIndex q.text = i + 1)
    ∧ ∀ (j : Nat) (s : String), (a ++ b)[j]? = some s →
        m.tokenToIndex s = p.pieces.length + j + 1 := by
  have hpieces : p.addSymbols (a ++ "<pad>@0" :: b) = { p with
      pieces := ⟨"<pad>", .control⟩ :: (p.pieces ++ (a ++ b).map (⟨·, .control⟩))
      padPiece := "<pad>" } := by
    rw [addSymbols_append, addSymbols_plain a p (fun s hs => ha s (by simp [hs]))]
    have : ∀ p : Proto, p.addSymbols ("<pad>@0" :: b) = (p.addSymbol "<pad>@0").addSymbols b :=
      fun _ => rfl
    rw [this, addSymbol_pad0, addSymbols_plain b _ (fun s hs => ha s (by simp [hs]))]
    simp
  unfold loadSp at hm
  rw [hpieces] at hm
  simp only at hm
  split at hm
  · rename_i hl
    have hm' := Except.ok.inj hm
    have hmp : m.pieces = ⟨"<pad>", .control⟩ :: (p.pieces ++ (a ++ b).map (⟨·, .control⟩)) := by
      rw [← hm']
    have hpad : m.padPiece = "<pad>" := by rw [← hm']
    have heos : m.eosPiece = p.eosPiece := by rw [← hm']
    rw [hm'] at hl
    have h0 : m.tokenToIndex "<pad>" = 0 :=
      tokenToIndex_reserved hl (i := 0) (q := ⟨"<pad>", .control⟩) (by rw [hmp]; rfl) rfl
    have hold : ∀ i q, p.pieces[i]? = some q → m.pieces[i + 1]? = some q := by
      intro i q hi
      rw [hmp, List.getElem?_cons_succ,
        List.getElem?_append_left (List.getElem?_eq_some_iff.1 hi).1, hi]
    refine ⟨?_, h0, ?_, ?_, ?_, ?_, ?_⟩
    · unfold Proto.vocabInfo VocabInfo.init
      split <;> simp [hmp] <;> omega
    · intro hne
      have hpadIdx : m.special .control m.padPiece = some 0 := by
        simp [Proto.special, hpad, h0, hmp]
      have heosIdx : m.special .control m.eosPiece ≠ some 0 := by
        intro he
        simp only [Proto.special] at he
        have hz : m.tokenToIndex m.eosPiece = 0 := by
          split at he
          · split at he
            · exact Option.some.inj he
            · cases he
          · cases he
        have hun : m.pieces.countP (·.kind = .unknown) = 1 := by
          simp only [Proto.loads, Bool.and_eq_true, beq_iff_eq] at hl
          exact hl.2
        have hunk : m.unk ≠ 0 := by
          unfold Proto.unk
          cases hf : m.pieces.findIdx? (·.kind = .unknown) with
          | none =>
            rw [List.findIdx?_eq_none_iff] at hf
            rw [List.countP_eq_zero.2 (fun q hq => by simpa using hf q hq)] at hun
            cases hun
          | some i =>
            intro hi
            simp only [Option.getD_some] at hi
            subst hi
            rw [List.findIdx?_eq_some_iff_getElem] at hf
            obtain ⟨hlt, hk, _⟩ := hf
            simp [hmp] at hk
        have hlook : ∀ r i, m.lookup r m.eosPiece = some i → i ≠ 0 := by
          intro r i h hi
          subst hi
          unfold Proto.lookup at h
          rw [List.findIdx?_eq_some_iff_getElem] at h
          obtain ⟨hlt, hk, _⟩ := h
          simp only [hmp, List.getElem_cons_zero, Bool.and_eq_true, beq_iff_eq] at hk
          exact hne (heos ▸ hk.2.symm)
        unfold Proto.tokenToIndex at hz
        split at hz
        · rename_i i hi
          exact hlook _ _ hi hz
        · cases hf : m.lookup false m.eosPiece with
          | none => rw [hf] at hz; exact hunk hz
          | some i => rw [hf] at hz; exact hlook _ _ hf hz
      unfold Proto.vocabInfo VocabInfo.init
      simp only [hpadIdx]
      rw [if_neg (fun h => heosIdx h.symm)]
    · intro i q hi
      exact indexToToken32_ok (hold i q hi)
    · intro i q hi hr
      exact tokenToIndex_reserved hl (hold i q hi) hr
    · intro i q hi hn hn2
      cases hr : q.kind.reserved with
      | true => exact tokenToIndex_reserved hl (hold i q hi) hr
      | false =>
        apply tokenToIndex_plain hl (hold i q hi) hr
        intro q' hq' hr' he
        rw [hmp, List.mem_cons, List.mem_append] at hq'
        rcases hq' with rfl | hq' | hq'
        · exact hn2 (by rw [← he]; exact List.mem_cons_self ..)
        · exact hn q' hq' hr' he
        · obtain ⟨s, hs, rfl⟩ := List.mem_map.1 hq'
          exact hn2 (by rw [← he]; exact List.mem_cons_of_mem _ hs)
    · intro j s hj
      have hjlt := (List.getElem?_eq_some_iff.1 hj).1
      have hpos : m.pieces[p.pieces.length + j + 1]? = some ⟨s, .control⟩ := by
        rw [hmp, List.getElem?_cons_succ, List.getElem?_append_right (by omega)]
        simp only [Nat.add_sub_cancel_left, List.getElem?_map, hj, Option.map_some]
      exact tokenToIndex_reserved hl hpos rfl
  · cases hm

theorem langToken_ne (lang : String) :
    langToken lang ≠ "" ∧ langToken lang ≠ "<pad>" ∧ langToken lang ≠ "<pad>@0" := by
  have h : (langToken lang).toList.head? = some '_' := by
    simp [langToken, String.toList_append]
  refine ⟨?_, ?_, ?_⟩ <;> (intro he; rw [he] at h; revert h; decide)

/-- **C99.** The vocabulary of NLLB: the padding symbol at 0, the pieces of the SentencePiece model
moved up by one, then the languages in the order of the configuration and the three data symbols. -/
theorem C99_nllb (p m : Proto) (langs : List String) (hm : loadSp p (nllbSymbols langs) = .ok m) :
    m.vocabInfo.size = p.pieces.length + langs.length + 4
    ∧ (p.eosPiece ≠ "<pad>" → m.vocabInfo.pad = some 0)
    ∧ (∀ i q, p.pieces[i]? = some q → q.kind = .control → m.tokenToIndex q.text = i + 1)
    ∧ ∀ (j : Nat) (lang : String), langs[j]? = some lang →
        m.tokenToIndex ("__" ++ lang ++ "__") = p.pieces.length + 1 + j := by
  have := C99_pad_first p m
    (langs.map langToken ++ ["<MINED_DATA>", "<MMT_BT_DATA>", "<SMT_BT_DATA>"]) [] (by
      intro s hs
      simp only [List.append_nil, List.mem_append, List.mem_map] at hs
      rcases hs with ⟨l, _, rfl⟩ | hs
      · exact langToken_ne l
      · simp only [List.mem_cons, List.not_mem_nil, or_false] at hs
        rcases hs with rfl | rfl | rfl <;> decide) hm
  obtain ⟨h1, _, h3, _, h5, _, h7⟩ := this
  refine ⟨?_, h3, ?_, ?_⟩
  · rw [h1]; simp; omega
  · intro i q hi hk
    exact h5 i q hi (by rw [hk]; rfl)
  · intro j lang hj
    have hlt := (List.getElem?_eq_some_iff.1 hj).1
    have := h7 j (langToken lang) (by
      rw [List.append_nil, List.getElem?_append_left (by simpa using hlt)]
      simp [hj])
    unfold langToken at this
    omega

example : ∃ m, loadSp tinyProto (nllbSymbols ["en", "de"]) = .ok m
    ∧ m.tokenToIndex "__de__" = 7 ∧ m.tokenToIndex "</s>" = 3 ∧ m.tokenToIndex "a" = 4 :=
  ⟨tinyProto.addSymbols (nllbSymbols ["en", "de"]), by
    unfold loadSp
    rw [if_pos (by decide +kernel)], by decide +kernel, by decide +kernel, by decide +kernel⟩

/-- **C99.** A control symbol that is given twice, or that the model has already, is refused. -/
theorem C99_symbol_twice (p : Proto) (symbols : List String)
    (hs : ∀ s ∈ symbols, s ≠ "" ∧ s ≠ "<pad>" ∧ s ≠ "<pad>@0")
    (h : ¬ symbols.Nodup ∨ ∃ s ∈ symbols, Controls p s) :
    loadSp p symbols = .error .runtime := by
  unfold loadSp
  rw [addSymbols_plain symbols p hs]
  simp only
  split
  · rename_i hl
    exfalso
    have hn := loads_nodup hl true
    simp only [List.filter_append, List.map_append, List.nodup_append] at hn
    have hfil : ((symbols.map (fun s => (⟨s, .control⟩ : Piece))).filter
        (·.kind.reserved == true)).map (·.text) = symbols := by
      rw [List.filter_eq_self.2 (by
        intro q hq
        obtain ⟨s, _, rfl⟩ := List.mem_map.1 hq
        rfl), List.map_map]
      conv => rhs; rw [← List.map_id symbols]
      rfl
    rw [hfil] at hn
    rcases h with h | ⟨s, hs, hc⟩
    · exact h hn.2.1
    · exact hn.2.2 s (List.mem_map.2 ⟨⟨s, .control⟩, List.mem_filter.2 ⟨hc, rfl⟩, rfl⟩) s hs rfl
  · rfl

example : Controls tinyProto "<s>" ∧ ("<s>" ≠ "" ∧ "<s>" ≠ "<pad>" ∧ "<s>" ≠ "<pad>@0") :=
  ⟨by simp [Controls, tinyProto], by decide⟩

/-- **C99.** Empty control symbols are skipped. -/
theorem C99_empty_symbol (p : Proto) (symbols : List String) : loadSp p symbols = loadSp p (symbols.filter (· ≠ "")) := by
  have : ∀ p : Proto, p.addSymbols symbols = p.addSymbols (symbols.filter (· ≠ "")) := by
    induction symbols with
    | nil => intro p; rfl
    | cons s l ih =>
      intro p
      by_cases hs : s = ""
      · subst hs
        exact ih p
      · rw [List.filter_cons_of_pos (by simpa using hs)]
        exact ih _
  unfold loadSp
  rw [this]

/-- **C99, violation.** A framing token that the model does not have is not refused: every text is
silently framed with the unknown symbol. -/
theorem C99_unknown_frame (p : Proto) (lib : Lib) (text : String)
    (h : ∀ q ∈ p.pieces, q.text ≠ "<s>") :
    ∃ f, basicFrame {} = .ok f
      ∧ (f.sp.call p lib 0 text).head? = some p.unk := by
  refine ⟨⟨["<s>"], ["</s>"]⟩, rfl, ?_⟩
  rw [spCall_eq]
  simp [Frame.sp, tokenToIndex_unknown h]

example : ∃ p : Proto, p.loads ∧ (∀ q ∈ p.pieces, q.text ≠ "<s>") ∧ 0 < p.pieces.length :=
  ⟨{ pieces := [⟨"<unk>", .unknown⟩, ⟨"a", .normal⟩] }, by decide +kernel, by decide +kernel, by
    decide⟩

/-! ## Modes -/

/-- A tokenizer for language models: a prompt is framed at its start only, a response at its end
only, and anything else at both. -/
def PromptThenResponse (frame : Args → Except Refusal Frame) (bos eos : List String) : Prop :=
  frame {} = .ok ⟨bos, eos⟩ ∧ frame { mode := some "default" } = .ok ⟨bos, eos⟩
    ∧ frame { mode := some "prompt" } = .ok ⟨bos, []⟩
    ∧ frame { mode := some "prompt_response" } = .ok ⟨[], eos⟩

/-- **C99.** The modes of the tokenizers for language models. -/
theorem C99_modes (eos : String) :
    PromptThenResponse basicFrame ["<s>"] ["</s>"]
    ∧ PromptThenResponse (llamaFrame eos) ["<|begin_of_text|>"] [eos]
    ∧ PromptThenResponse (qwenFrame eos) [] [eos]
    ∧ llamaFrame eos { mode := some "as_is" } = .ok ⟨[], []⟩
    ∧ qwenFrame eos { mode := some "as_is" } = .ok ⟨[], []⟩
    ∧ rawFrame {} = .ok ⟨[], []⟩ := by
  refine ⟨⟨rfl, rfl, rfl, rfl⟩, ⟨rfl, rfl, rfl, rfl⟩, ⟨rfl, rfl, rfl, rfl⟩, rfl, rfl, rfl⟩

/-- **C99.** A prompt and its response, encoded apart and joined, are framed like one text: the
tokens of the prompt and then of the response, between BOS and EOS.  An encoded prompt followed by
the suffix indices is the encoding of the prompt as a text of its own. -/
theorem C99_prompt_response (p : Proto) (lib : Lib) (prompt response : String) :
    ∃ whole first second, basicFrame {} = .ok whole
      ∧ basicFrame { mode := some "prompt" } = .ok first
      ∧ basicFrame { mode := some "prompt_response" } = .ok second
      ∧ first.sp.call p lib 0 prompt ++ second.sp.call p lib 0 response
          = (whole.sp.prefixIndices p).getD [] ++ (lib.encode prompt).map (·.id)
            ++ (lib.encode response).map (·.id) ++ (whole.sp.suffixIndices p).getD []
      ∧ first.sp.call p lib 0 prompt ++ (second.sp.suffixIndices p).getD []
          = whole.sp.call p lib 0 prompt := by
  refine ⟨_, _, _, rfl, rfl, rfl, ?_, ?_⟩ <;>
    simp [spCall_eq, Frame.sp, SpEncoder.prefixIndices, SpEncoder.suffixIndices, SpEncoder.pieces]

/-- **C99.** What `create_encoder` refuses, exactly. -/
theorem C99_refused (eos task default : String) (langs : List String) (a : Args) :
    ((∃ f, basicFrame a = .ok f) ↔ a.task = none ∧ a.lang = none
        ∧ a.mode ∈ [none, some "default", some "prompt", some "prompt_response"])
    ∧ ((∃ f, rawFrame a = .ok f) ↔ a = {})
    ∧ ((∃ f, llamaFrame eos a = .ok f) ↔ a.task = none ∧ a.lang = none
        ∧ a.mode ∈ [none, some "default", some "prompt", some "prompt_response", some "as_is"])
    ∧ ((∃ f, nllbFrame langs default a = .ok f) ↔ a.task ∈ [none, some "translation"]
        ∧ (a.lang.getD default) ∈ langs
        ∧ a.mode ∈ [none, some "source", some "source_mining", some "source_mmt_bt",
          some "source_smt_bt", some "target"])
    ∧ ((∃ f, s2tFrame task langs default a = .ok f) ↔ a.task ∈ [none, some task]
        ∧ (a.lang.getD default) ∈ langs ∧ a.mode ∈ [none, some "target"]) := by
  obtain ⟨t, l, m⟩ := a
  refine ⟨?_, ?_, ?_, ?_, ?_⟩
  · unfold basicFrame
    repeat' split
    all_goals grind
  · unfold rawFrame
    repeat' split
    all_goals grind
  · unfold llamaFrame
    repeat' split
    all_goals grind
  · unfold nllbFrame
    simp only
    repeat' split
    all_goals grind
  · unfold s2tFrame
    simp only
    repeat' split
    all_goals grind

/-- **C99.** In translation the language token tells the target: target sequences of NLLB start
with EOS and the language, those of a multilingual speech model too, and source sequences start
with the language; the prefix is never empty, so a translator can start from it. -/
theorem C99_translation (langs : List String) (default lang : String) (h : lang ∈ langs) :
    nllbFrame langs default ⟨some "translation", some lang, some "target"⟩ = .ok ⟨["</s>", "__" ++ lang ++ "__"], ["</s>"]⟩
    ∧ nllbFrame langs default ⟨some "translation", some lang, some "source"⟩ = .ok ⟨["__" ++ lang ++ "__"], ["</s>"]⟩
    ∧ s2tFrame "translation" langs default { lang := some lang }
        = .ok (if 1 < langs.length then ⟨["</s>", "<lang:" ++ lang ++ ">"], []⟩
            else ⟨["</s>"], []⟩) := by
  refine ⟨by simp [nllbFrame, h, langToken], by simp [nllbFrame, h, langToken], ?_⟩
  by_cases h1 : 1 < langs.length <;> simp [s2tFrame, h, h1]

example : ("de" : String) ∈ ["en", "de"] := by simp

/-- **C99.** The modes of NLLB for source text that was mined or translated back tell where it comes from after the language. -/
theorem C99_origin (langs : List String) (default lang : String) (h : lang ∈ langs) (mode tag : String)
    (hm : (mode, tag) ∈ [("source_mining", "<MINED_DATA>"), ("source_mmt_bt", "<MMT_BT_DATA>"), ("source_smt_bt", "<SMT_BT_DATA>")]) :
    nllbFrame langs default ⟨none, some lang, some mode⟩ = .ok ⟨["__" ++ lang ++ "__", tag], ["</s>"]⟩ := by
  simp only [List.mem_cons, Prod.mk.injEq, List.not_mem_nil, or_false] at hm
  rcases hm with ⟨rfl, rfl⟩ | ⟨rfl, rfl⟩ | ⟨rfl, rfl⟩ <;> simp [nllbFrame, h, langToken]

/-- **C99, violation.** The tokenizer of Gemma 3n has no mode for responses, the mode that
supervised fine-tuning uses by default, and ends no text with EOS in any mode. -/
theorem C99_gemma : gemmaFrame { mode := some "prompt_response" } = .error .value
    ∧ ∀ a f, gemmaFrame a = .ok f → f.after = [] := by
  refine ⟨rfl, ?_⟩
  intro a f h
  unfold gemmaFrame at h
  repeat' split at h
  all_goals cases h
  all_goals rfl

/-- **C99, violation.** A translator that cuts long source text cuts its end-of-sequence token off:
nothing of the suffix is left. -/
theorem C99_truncated (p : Proto) (lib : Lib) (f : Frame) (n : Nat) (text : String)
    (h : n ≤ f.before.length + (lib.encode text).length) :
    sourceSeq p lib f (some n) text
      = (f.before.map p.tokenToIndex ++ (lib.encode text).map (·.id)).take n := by
  unfold sourceSeq
  rw [spCall_eq]
  simp only [Frame.sp, SpEncoder.pieces, Bool.false_eq_true, if_false]
  rw [List.take_append_of_le_length (by simpa using h)]

example : sourceSeq tinyProto tinyLib ⟨["<s>"], ["</s>"]⟩ (some 3) "ab" = [1, 3, 4]
    ∧ sourceSeq tinyProto tinyLib ⟨["<s>"], ["</s>"]⟩ none "ab" = [1, 3, 4, 2] := by
  constructor <;> decide +kernel

/-! ## Vocabulary information -/

/-- **C99.** Padding is never the end of a sequence: a padding index that equals the EOS index is
dropped, any other is kept, and nothing else changes. -/
theorem C99_pad_not_eos (v : VocabInfo) :
    (∀ i, v.init.pad = some i ↔ v.pad = some i ∧ v.eos ≠ some i)
    ∧ v.init.eos = v.eos ∧ v.init.bos = v.bos ∧ v.init.unk = v.unk ∧ v.init.size = v.size := by
  unfold VocabInfo.init
  split
  · rename_i h
    refine ⟨?_, rfl, rfl, rfl, rfl⟩
    intro i
    constructor
    · intro h'; cases h'
    · rintro ⟨h1, h2⟩; exact absurd (h ▸ h1) h2
  · rename_i h
    refine ⟨?_, rfl, rfl, rfl, rfl⟩
    intro i
    exact ⟨fun h' => ⟨h', fun he => h (h'.trans he.symm)⟩, fun h' => h'.1⟩

/-- **C99.** The vocabulary of a SentencePiece model: BOS and EOS are the indices of the control pieces that the model names, and
`None` if it has no such piece; UNK is the index of the unknown piece that the model names. -/
theorem C99_vocab_info (p : Proto) (h : p.loads) (i : Nat) :
    (p.vocabInfo.bos = some i ↔ p.pieces[i]? = some ⟨p.bosPiece, .control⟩)
    ∧ (p.vocabInfo.eos = some i ↔ p.pieces[i]? = some ⟨p.eosPiece, .control⟩)
    ∧ (p.pieces[i]? = some ⟨p.unkPiece, .unknown⟩ → p.vocabInfo.unk = some i) := by
  have back : ∀ (k : Kind) (t : String), k.reserved = true → p.pieces[i]? = some ⟨t, k⟩ → p.special k t = some i := by
    intro k t hr hi
    have := tokenToIndex_reserved h hi hr
    simp only at this
    simp [Proto.special, this, hi]
  have key : ∀ t : String, p.special .control t = some i ↔ p.pieces[i]? = some ⟨t, .control⟩ := by
    intro t
    refine ⟨fun hs => ?_, back _ t rfl⟩
    unfold Proto.special at hs
    cases hq : p.pieces[p.tokenToIndex t]? with
    | none => simp [hq] at hs
    | some q =>
      simp only [hq] at hs
      split at hs
      · rename_i hk
        have hi := Option.some.inj hs
        rw [hi] at hq
        rw [hq]
        suffices q.text = t by rw [← this, ← hk]
        unfold Proto.tokenToIndex at hi
        cases h1 : p.lookup true t with
        | some j =>
          simp only [h1] at hi
          subst hi
          obtain ⟨hlt, hj, -⟩ := List.findIdx?_eq_some_iff_getElem.1 h1
          rw [List.getElem?_eq_getElem hlt] at hq
          have := Option.some.inj hq
          rw [this] at hj
          simp only [Bool.and_eq_true, beq_iff_eq] at hj
          exact hj.2
        | none =>
          simp only [h1] at hi
          cases h2 : p.lookup false t with
          | some j =>
            simp only [h2, Option.getD_some] at hi
            subst hi
            obtain ⟨hlt, hj, -⟩ := List.findIdx?_eq_some_iff_getElem.1 h2
            rw [List.getElem?_eq_getElem hlt] at hq
            have := Option.some.inj hq
            rw [this] at hj
            simp [hk, Kind.reserved] at hj
          | none =>
            simp only [h2, Option.getD_none] at hi
            exfalso
            have hc : p.pieces.countP (·.kind = .unknown) = 1 := by
              have := h
              simp only [Proto.loads, Bool.and_eq_true, beq_iff_eq] at this
              exact this.2
            cases h3 : p.pieces.findIdx? (·.kind = .unknown) with
            | none =>
              rw [List.findIdx?_eq_none_iff] at h3
              rw [List.countP_eq_zero.2 (fun x hx => by simpa using h3 x hx)] at hc
              cases hc
            | some j =>
              simp only [Proto.unk, h3, Option.getD_some] at hi
              subst hi
              obtain ⟨hlt, hj, -⟩ := List.findIdx?_eq_some_iff_getElem.1 h3
              rw [List.getElem?_eq_getElem hlt] at hq
              have := Option.some.inj hq
              rw [this] at hj
              simp [hk] at hj
      · cases hs
  have hv := C99_pad_not_eos {
    size := p.pieces.length
    unk := p.special .unknown p.unkPiece
    bos := p.special .control p.bosPiece
    eos := p.special .control p.eosPiece
    pad := p.special .control p.padPiece }
  refine ⟨?_, ?_, ?_⟩
  · rw [← key]
    exact Eq.to_iff (congrArg (· = some i) hv.2.2.1)
  · rw [← key]
    exact Eq.to_iff (congrArg (· = some i) hv.2.1)
  · intro hi
    exact hv.2.2.2.1.trans (back _ _ rfl hi)

example : tinyProto.loads ∧ tinyProto.vocabInfo.bos = some 1 ∧ tinyProto.vocabInfo.eos = some 2 := by
  refine ⟨tiny_loads, by decide +kernel, by decide +kernel⟩

/-- **C99, violation.** Qwen tokenizers name a padding token but with the default configuration,
where `use_im_end` is false, they have no padding index whatever the vocabulary is: it is the EOS
token. -/
theorem C99_qwen_pad (tok : HgLib) : (qwenVocab tok false).pad = none := by
  have h : ∀ i, (qwenVocab tok false).pad ≠ some i := by
    intro i hi
    have := ((C99_pad_not_eos _).1 i).1 hi
    exact this.2 this.1
  cases hp : (qwenVocab tok false).pad with
  | none => rfl
  | some i => exact absurd hp (h i)

/-! ## tiktoken -/

/-- A byte-pair vocabulary: the indices are below the number of tokens. -/
def BpeRanks (ranks : List (List UInt8 × Nat)) : Prop := ∀ q ∈ ranks, q.2 < ranks.length

theorem lookup_single {E : Encoding} {t : String} {i : Nat}
    (h1 : E.ranks.lookup (bytesOf t) = none) (h2 : E.special.lookup t = some i) :
    E.single t = .ok i := by
  simp [Encoding.single, h1, h2]

theorem prefix_three (a b c : String) : a.toList <+: (a ++ b ++ c).toList := by
  rw [String.toList_append, String.toList_append, List.append_assoc]
  exact List.prefix_append _ _

theorem head_three (a b c : String) (x : Char) (h : a.toList.head? = some x) :
    (a ++ b ++ c).toList.head? = some x := by
  rw [String.toList_append, String.toList_append, List.append_assoc, List.head?_append, h]
  rfl

theorem llamaSpecials_nodup : llamaSpecials.Nodup := by
  unfold llamaSpecials
  rw [List.nodup_append]
  refine ⟨by decide +kernel, ?_, ?_⟩
  · apply List.Pairwise.map _ _ List.nodup_range
    intro i j hij h
    exact hij (by have := reservedToken_inj h; omega)
  · intro a ha b hb hab
    subst hab
    obtain ⟨i, _, rfl⟩ := List.mem_map.1 hb
    have hall : ∀ t ∈ llamaNamed, t = reservedToken 0 ∨ t = reservedToken 1
        ∨ ¬ "<|reserved_special_token_".toList <+: t.toList := by
      decide +kernel
    rcases hall _ ha with h | h | h
    · have := reservedToken_inj h; omega
    · have := reservedToken_inj h; omega
    · have := prefix_three "<|reserved_special_token_" (Nat.repr (2 + i)) "|>"
      exact h this

theorem llamaSpecials_length : llamaSpecials.length = 256 := by
  simp [llamaSpecials, llamaNamed]

/-- **C99.** The special tokens of a tiktoken model are numbered after the byte-pair tokens, in
their order, and the vocabulary ends with them. -/
theorem C99_special (ranks : List (List UInt8 × Nat)) (ordinary : List Char → List Nat)
    (bos eos pad boh eoh : Option String) (specials : List String) (hs : specials.Nodup)
    (hr : BpeRanks ranks) (hne : specials ≠ []) (T : Tiktoken)
    (hT : loadTiktoken ranks ordinary bos eos pad boh eoh specials = .ok T) :
    T.numBpe = ranks.length
    ∧ T.vocab.size = ranks.length + specials.length
    ∧ ∀ (i : Nat) (t : String), specials[i]? = some t → ranks.lookup (bytesOf t) = none →
        T.encoding.single t = .ok (ranks.length + i) := by
  unfold loadTiktoken at hT
  simp only at hT
  split at hT
  · have hT' := Except.ok.inj hT
    subst hT'
    have hmap := specialMap_eq ranks.length specials 0 [] hs (by simp)
    simp only [List.nil_append, Nat.add_zero] at hmap
    refine ⟨rfl, ?_, ?_⟩
    · refine (C99_pad_not_eos _).2.2.2.2.trans ?_
      unfold Encoding.nVocab
      simp only [hmap]
      have hlen : 0 < specials.length := List.length_pos_iff.2 hne
      have hup : (ranks.map (·.2) ++ (specials.mapIdx fun j t =>
          (t, ranks.length + j)).map (·.2)).foldl max 0
          ≤ ranks.length + specials.length - 1 := by
        apply foldl_max_le _ _ _ (by omega)
        intro x hx
        rw [List.mem_append] at hx
        rcases hx with hx | hx
        · obtain ⟨q, hq, rfl⟩ := List.mem_map.1 hx
          have := hr q hq
          omega
        · obtain ⟨q, hq, rfl⟩ := List.mem_map.1 hx
          rw [List.mem_mapIdx] at hq
          obtain ⟨j, hj, rfl⟩ := hq
          simp only
          omega
      have hlow := (le_foldl_max (ranks.map (·.2) ++ (specials.mapIdx fun j t =>
          (t, ranks.length + j)).map (·.2)) 0).2 (ranks.length + specials.length - 1) (by
        rw [List.mem_append]
        right
        refine List.mem_map.2 ⟨(specials[specials.length - 1], ranks.length
          + (specials.length - 1)), ?_, by simp only; omega⟩
        rw [List.mem_mapIdx]
        exact ⟨specials.length - 1, by omega, rfl⟩)
      omega
    · intro i t ht hno
      apply lookup_single hno
      simp only [hmap]
      exact lookup_mapIdx specials (fun j => ranks.length + j) hs ht
  · cases hT
  · cases hT

/-- The byte-pair vocabulary has none of the special tokens of LLaMA. -/
def NoSpecial (ranks : List (List UInt8 × Nat)) : Prop :=
  ∀ t ∈ llamaSpecials, ranks.lookup (bytesOf t) = none

theorem llama_lookup (ranks : List (List UInt8 × Nat)) (i : Nat) (t : String)
    (h : llamaNamed[i]? = some t) :
    (specialMap ranks.length 0 [] llamaSpecials).lookup t = some (ranks.length + i)
    ∧ t ∈ llamaSpecials := by
  have hmap := specialMap_eq ranks.length llamaSpecials 0 [] llamaSpecials_nodup (by simp)
  simp only [List.nil_append, Nat.add_zero] at hmap
  have hi : llamaSpecials[i]? = some t := by
    unfold llamaSpecials
    rw [List.getElem?_append_left (List.getElem?_eq_some_iff.1 h).1, h]
  rw [hmap]
  exact ⟨lookup_mapIdx llamaSpecials (fun j => ranks.length + j) llamaSpecials_nodup hi,
    List.mem_of_getElem? hi⟩

/-- **C99.** The vocabulary of LLaMA: 256 special tokens follow the byte-pair tokens; BOS is the
first, EOS the second or, for chat models, the tenth, and the padding token the fifth. -/
theorem C99_llama (ranks : List (List UInt8 × Nat)) (ordinary : List Char → List Nat)
    (useEot : Bool) (hr : BpeRanks ranks) (hs : NoSpecial ranks) :
    ∃ T, loadLlama ranks ordinary useEot = .ok T
      ∧ T.encoding = ⟨ranks, specialMap ranks.length 0 [] llamaSpecials, ordinary⟩
      ∧ T.numBpe = ranks.length
      ∧ T.vocab = {
          size := ranks.length + 256
          unk := none
          bos := some ranks.length
          eos := some (ranks.length + if useEot then 9 else 1)
          pad := some (ranks.length + 4)
          boh := some (ranks.length + 6)
          eoh := some (ranks.length + 7) } := by
  have one : ∀ (i : Nat) (t : String), t ≠ "" → llamaNamed[i]? = some t →
      Encoding.maybe ⟨ranks, specialMap ranks.length 0 [] llamaSpecials, ordinary⟩ (some t)
        = .ok (some (ranks.length + i)) := by
    intro i t hne ht
    have := llama_lookup ranks i t ht
    generalize specialMap ranks.length 0 [] llamaSpecials = S at this
    have hsingle : Encoding.single ⟨ranks, S, ordinary⟩ t = .ok (ranks.length + i) :=
      lookup_single (hs t this.2) this.1
    simp only [Encoding.maybe, hne, if_false, hsingle]
  have hb := one 0 "<|begin_of_text|>" (by decide) rfl
  have he : Encoding.maybe ⟨ranks, specialMap ranks.length 0 [] llamaSpecials, ordinary⟩
      (some (llamaEos useEot)) = .ok (some (ranks.length + if useEot then 9 else 1)) := by
    cases useEot with
    | true => exact one 9 _ (by decide) rfl
    | false => exact one 1 _ (by decide) rfl
  have hp := one 4 "<|finetune_right_pad_id|>" (by decide) rfl
  have h6 := one 6 "<|start_header_id|>" (by decide) rfl
  have h7 := one 7 "<|end_header_id|>" (by decide) rfl
  have hload : ∃ T, loadLlama ranks ordinary useEot = .ok T
      ∧ T = ⟨⟨ranks, specialMap ranks.length 0 [] llamaSpecials, ordinary⟩, ranks.length,
        VocabInfo.init ⟨Encoding.nVocab
          ⟨ranks, specialMap ranks.length 0 [] llamaSpecials, ordinary⟩, none,
          some (ranks.length + 0), some (ranks.length + if useEot then 9 else 1),
          some (ranks.length + 4), some (ranks.length + 6), some (ranks.length + 7)⟩⟩ := by
    unfold loadLlama loadTiktoken
    simp only [mapOk, hb, he, hp, h6, h7]
    exact ⟨_, rfl, rfl⟩
  obtain ⟨T, hT, hTe⟩ := hload
  have hsp := C99_special ranks ordinary _ _ _ _ _ llamaSpecials llamaSpecials_nodup hr
    (by intro h; have := llamaSpecials_length; rw [h] at this; cases this) T hT
  refine ⟨T, hT, by rw [hTe], hsp.1, ?_⟩
  have hsize := hsp.2.1
  rw [llamaSpecials_length] at hsize
  rw [hTe] at hsize ⊢
  simp only at hsize ⊢
  have hne : ¬ (some (ranks.length + 4) = some (ranks.length + if useEot then 9 else 1)) := by
    simp only [Option.some.injEq]
    split <;> omega
  unfold VocabInfo.init at hsize ⊢
  rw [if_neg hne] at hsize ⊢
  simp only at hsize
  rw [hsize]
  rfl

theorem bytesOf_inj {s t : String} (h : bytesOf s = bytesOf t) : s = t := by
  unfold bytesOf at h
  apply String.toByteArray_inj.1
  have := Array.toList_inj.1 h
  exact ByteArray.ext this

theorem special_head {t : String} (h : t ∈ llamaSpecials) : t.toList.head? = some '<' := by
  unfold llamaSpecials at h
  rw [List.mem_append] at h
  rcases h with h | h
  · have : ∀ t ∈ llamaNamed, t.toList.head? = some '<' := by decide +kernel
    exact this t h
  · obtain ⟨i, _, rfl⟩ := List.mem_map.1 h
    have : ("<|reserved_special_token_" : String).toList.head? = some '<' := by decide +kernel
    exact head_three _ (Nat.repr (2 + i)) "|>" _ this

/-- A vocabulary of two letters. -/
def abRanks : List (List UInt8 × Nat) := [([97], 0), ([98], 1)]

theorem abRanks_good : BpeRanks abRanks ∧ NoSpecial abRanks := by
  refine ⟨by unfold BpeRanks; decide, ?_⟩
  intro t ht
  have hh := special_head ht
  have ha : bytesOf t ≠ [97] := by
    intro h
    have : t = "a" := bytesOf_inj (h.trans (by decide +kernel : [97] = bytesOf "a"))
    subst this
    revert hh; decide +kernel
  have hb : bytesOf t ≠ [98] := by
    intro h
    have : t = "b" := bytesOf_inj (h.trans (by decide +kernel : [98] = bytesOf "b"))
    subst this
    revert hh; decide +kernel
  simp [abRanks, List.lookup, beq_eq_false_iff_ne.2 ha, beq_eq_false_iff_ne.2 hb]

/-- What the tiktoken library promises: cutting text without special tokens gives byte-pair tokens
whose bytes are those of the text. -/
def CutsBytes (E : Encoding) (n : Nat) : Prop :=
  ∀ text : String, ∃ bs, mapOk E.bytesAt (E.ordinary text.toList) = .ok bs
    ∧ bs.flatten = bytesOf text ∧ ∀ i ∈ E.ordinary text.toList, i < n

/-- No special token occurs in a text. -/
def Without (E : Encoding) (text : String) : Prop :=
  ∀ s ∈ E.special.map (·.1), ∀ a b, text.toList ≠ a ++ s.toList ++ b

theorem mapOk_append {f : α → Except Refusal β} {l r : List α} {x y : List β}
    (hl : mapOk f l = .ok x) (hr : mapOk f r = .ok y) : mapOk f (l ++ r) = .ok (x ++ y) := by
  induction l generalizing x with
  | nil => simp only [mapOk, Except.ok.injEq] at hl; subst hl; simpa using hr
  | cons a l ih =>
    simp only [mapOk] at hl
    cases ha : f a with
    | error e => simp [ha] at hl
    | ok b =>
      cases hm : mapOk f l with
      | error e => simp [ha, hm] at hl
      | ok bs =>
        simp only [ha, hm, Except.ok.injEq] at hl
        subst hl
        simp [mapOk, ha, ih hm]

theorem without_scan {E : Encoding} {text : String} (h : Without E text) : E.encode text.toList = E.ordinary text.toList := by
  unfold Encoding.encode
  rw [scan_ordinary]
  · rfl
  · intro l _ hsuf
    unfold Encoding.startsWith
    rw [List.find?_eq_none]
    intro q hq hpre
    obtain ⟨a, ha⟩ := hsuf
    obtain ⟨b, hb⟩ := List.isPrefixOf_iff_prefix.1 hpre
    exact h q.1 (List.mem_map.2 ⟨q, hq, rfl⟩) a b (by rw [← ha, ← hb, List.append_assoc])

/-- **C99.** Decoding with special tokens skipped undoes encoding for text without special tokens,
whatever special tokens frame it. -/
theorem C99_skip (T : Tiktoken) (u : Utf8) (hu : ∀ s, u.lenient (bytesOf s) = s)
    (hc : CutsBytes T.encoding T.numBpe) (f : Frame)
    (text : String) (hw : Without T.encoding text)
    (hf : ∀ t ∈ f.before ++ f.after, ∃ i, T.encoding.single t = .ok i ∧ T.numBpe ≤ i) :
    ∃ indices, T.call f text = .ok indices ∧ T.decode u true indices = .ok text := by
  have key : ∀ l : List String, (∀ t ∈ l, ∃ i, T.encoding.single t = .ok i ∧ T.numBpe ≤ i) →
      ∃ is, mapOk T.encoding.single l = .ok is ∧ is.filter (· < T.numBpe) = [] := by
    intro l
    induction l with
    | nil => intro _; exact ⟨[], rfl, rfl⟩
    | cons t l ih =>
      intro h
      obtain ⟨i, hi, hge⟩ := h t (by simp)
      obtain ⟨is, his, hfil⟩ := ih (fun t ht => h t (by simp [ht]))
      refine ⟨i :: is, by simp [mapOk, hi, his], ?_⟩
      have : ¬ i < T.numBpe := by omega
      simp [this, hfil]
  obtain ⟨pre, hpre, hpre'⟩ := key f.before (fun t ht => hf t (by simp [ht]))
  obtain ⟨suf, hsuf, hsuf'⟩ := key f.after (fun t ht => hf t (by simp [ht]))
  obtain ⟨bs, hbs, hflat, hlt⟩ := hc text
  refine ⟨pre ++ T.encoding.ordinary text.toList ++ suf, ?_, ?_⟩
  · simp only [Tiktoken.call, Tiktoken.frame, hpre, hsuf, without_scan hw]
    cases pre <;> cases suf <;> simp
  · have hfil : (pre ++ T.encoding.ordinary text.toList ++ suf).filter (· < T.numBpe)
        = T.encoding.ordinary text.toList := by
      rw [List.filter_append, List.filter_append, hpre', hsuf', List.append_nil, List.nil_append,
        List.filter_eq_self.2 (fun i hi => by simpa using hlt i hi)]
    simp only [Tiktoken.decode, if_true, hfil, hbs, hflat, hu]

/-- A vocabulary of all bytes and one special token. -/
def byteTokens : Tiktoken :=
  ⟨⟨(List.range 256).map (fun i => ([UInt8.ofNat i], i)), [("<e>", 256)],
    fun text => (bytesOf (String.ofList text)).map (·.toNat)⟩, 256,
    ⟨257, none, none, some 256, none, none, none⟩⟩

theorem byteTokens_bytes (b : UInt8) : byteTokens.encoding.bytesAt b.toNat = .ok [b] := by
  have hlt : b.toNat < 256 := b.toNat_lt
  have : ((List.range 256).map (fun i => ([UInt8.ofNat i], i))).find? (·.2 == b.toNat)
      = some ([b], b.toNat) := by
    rw [List.find?_eq_some_iff_getElem]
    refine ⟨by simp, b.toNat, by simpa using hlt, by simp, ?_⟩
    intro j hj
    have : j ≠ b.toNat := by omega
    simpa using this
  simp [Encoding.bytesAt, byteTokens, this]

theorem byteTokens_cuts : CutsBytes byteTokens.encoding byteTokens.numBpe := by
  intro text
  have ho : byteTokens.encoding.ordinary text.toList = (bytesOf text).map (·.toNat) := by
    simp [byteTokens]
  rw [ho]
  refine ⟨(bytesOf text).map (fun b => [b]), ?_, ?_, ?_⟩
  · rw [mapOk_map]
    exact mapOk_ok fun b _ => byteTokens_bytes b
  · induction bytesOf text with
    | nil => rfl
    | cons b l ih => simp [ih]
  · intro i hi
    obtain ⟨b, _, rfl⟩ := List.mem_map.1 hi
    exact b.toNat_lt

example : CutsBytes byteTokens.encoding byteTokens.numBpe
    ∧ ∃ i, byteTokens.encoding.single "<e>" = .ok i ∧ byteTokens.numBpe ≤ i := by
  refine ⟨byteTokens_cuts, 256, lookup_single ?_ rfl, Nat.le_refl _⟩
  decide +kernel

/-- **C99.** The frame of LLaMA in every mode is made of special tokens. -/
theorem C99_llama_frame (ranks : List (List UInt8 × Nat)) (ordinary : List Char → List Nat)
    (useEot : Bool) (hr : BpeRanks ranks) (hs : NoSpecial ranks) (a : Args) (f : Frame)
    (hf : llamaFrame (llamaEos useEot) a = .ok f) :
    ∃ T, loadLlama ranks ordinary useEot = .ok T
      ∧ ∀ t ∈ f.before ++ f.after, ∃ i, T.encoding.single t = .ok i ∧ T.numBpe ≤ i := by
  obtain ⟨T, hT, hE, hn, -⟩ := C99_llama ranks ordinary useEot hr hs
  refine ⟨T, hT, ?_⟩
  have one : ∀ (i : Nat) (t : String), llamaNamed[i]? = some t →
      ∃ j, T.encoding.single t = .ok j ∧ T.numBpe ≤ j := by
    intro i t ht
    have := llama_lookup ranks i t ht
    generalize specialMap ranks.length 0 [] llamaSpecials = S at this hE
    refine ⟨ranks.length + i, ?_, by omega⟩
    rw [hE]
    exact lookup_single (hs t this.2) this.1
  have hb := one 0 "<|begin_of_text|>" rfl
  have he : ∃ j, T.encoding.single (llamaEos useEot) = .ok j ∧ T.numBpe ≤ j := by
    cases useEot with
    | true => exact one 9 _ rfl
    | false => exact one 1 _ rfl
  intro t ht
  have hmem : t = "<|begin_of_text|>" ∨ t = llamaEos useEot := by
    unfold llamaFrame at hf
    repeat' split at hf
    all_goals cases hf
    all_goals simp at ht
    · exact ht
    · exact Or.inl ht
    · exact Or.inr ht
  rcases hmem with rfl | rfl
  · exact hb
  · exact he

example : BpeRanks abRanks ∧ NoSpecial abRanks := abRanks_good

/-- **C99, violation.** Text can forge special tokens: where the text contains the name of one, it
is encoded to its index, as the tokenizer's own frame is. -/
theorem C99_injected (E : Encoding) (a b : List Char) (s : String) (i : Nat) (hs : s ≠ "")
    (hm : E.startsWith (s.toList ++ b) = some (s, i))
    (h : ∀ l, l ≠ [] → l <:+ a → E.startsWith (l ++ s.toList ++ b) = none) :
    E.encode (a ++ s.toList ++ b) = E.ordinary a ++ i :: E.encode b := by
  have hne : s.toList ≠ [] := by
    intro h
    exact hs (String.toList_injective (h.trans (by rfl)))
  have := scan_special E a [] b s i hne hm h
  simpa [Encoding.encode] using this

theorem mapIdx_append_get (a b : List String) (n j : Nat) (hlt : j < a.length) (hj) :
    ((a ++ b).mapIdx (fun j t => (t, n + j)))[j]'hj = (a.getD j "", n + j) := by
  rw [List.getElem_mapIdx, List.getElem_append_left hlt, List.getD_eq_getElem?_getD,
    List.getElem?_eq_getElem hlt]
  rfl

/-- **C99, violation.** So a LLaMA text without `<` that is followed by the name of the EOS token
is encoded, as it is, to the same indices as the finished response: a reader cannot tell whether
the user or the tokenizer ended the sequence. -/
theorem C99_forged (ranks : List (List UInt8 × Nat)) (ordinary : List Char → List Nat)
    (useEot : Bool) (hr : BpeRanks ranks) (hs : NoSpecial ranks) (h0 : ordinary [] = [])
    (text : String) (ht : '<' ∉ text.toList) :
    ∃ T response asIs, loadLlama ranks ordinary useEot = .ok T
      ∧ llamaFrame (llamaEos useEot) { mode := some "prompt_response" } = .ok response
      ∧ llamaFrame (llamaEos useEot) { mode := some "as_is" } = .ok asIs
      ∧ T.call asIs (text ++ llamaEos useEot) = T.call response text := by
  obtain ⟨T, hT, hE, hn, -⟩ := C99_llama ranks ordinary useEot hr hs
  refine ⟨T, _, _, hT, rfl, rfl, ?_⟩
  have hmap := specialMap_eq ranks.length llamaSpecials 0 [] llamaSpecials_nodup (by simp)
  simp only [List.nil_append, Nat.add_zero] at hmap
  have hord : T.encoding.ordinary = ordinary := by rw [hE]
  have hspecial : T.encoding.special
      = llamaSpecials.mapIdx (fun j t => (t, ranks.length + j)) := by rw [hE, hmap]
  have hidx : T.encoding.single (llamaEos useEot)
      = .ok (ranks.length + if useEot then 9 else 1) := by
    have hnamed : llamaNamed[if useEot then 9 else 1]? = some (llamaEos useEot) := by
      cases useEot <;> rfl
    have := llama_lookup ranks _ _ hnamed
    generalize specialMap ranks.length 0 [] llamaSpecials = S at this hE
    rw [hE]
    exact lookup_single (hs _ this.2) this.1
  have hnone : ∀ c l, c ≠ '<' → T.encoding.startsWith (c :: l) = none := by
    intro c l hc
    unfold Encoding.startsWith
    rw [List.find?_eq_none]
    intro q hq hpre
    rw [hspecial, List.mem_mapIdx] at hq
    obtain ⟨j, hj, rfl⟩ := hq
    have hh := special_head (List.getElem_mem hj)
    obtain ⟨r, hr⟩ := List.isPrefixOf_iff_prefix.1 hpre
    simp only at hr
    cases hq : (llamaSpecials[j]).toList with
    | nil => rw [hq] at hh; cases hh
    | cons x xs =>
      rw [hq] at hh hr
      simp only [List.head?_cons, Option.some.injEq] at hh
      simp only [List.cons_append, List.cons.injEq] at hr
      exact hc (hr.1.symm.trans hh)
  have hstart : T.encoding.startsWith ((llamaEos useEot).toList ++ [])
      = some (llamaEos useEot, ranks.length + if useEot then 9 else 1) := by
    unfold Encoding.startsWith
    rw [hspecial, List.append_nil, List.find?_eq_some_iff_getElem]
    have hget : ∀ j, j < llamaNamed.length → ∀ hj, (llamaSpecials.mapIdx
        (fun j t => (t, ranks.length + j)))[j]'hj = (llamaNamed.getD j "", ranks.length + j) := by
      intro j hlt hj
      exact mapIdx_append_get _ _ _ _ hlt _
    have hlen : (llamaSpecials.mapIdx (fun j t => (t, ranks.length + j))).length = 256 := by
      rw [List.length_mapIdx, llamaSpecials_length]
    have hn11 : llamaNamed.length = 11 := rfl
    refine ⟨by simp, if useEot then 9 else 1, by rw [hlen]; split <;> omega, ?_, ?_⟩
    · rw [hget _ (by rw [hn11]; split <;> omega)]
      cases useEot <;> rfl
    · intro j hj
      rw [hget j (by rw [hn11]; revert hj; split <;> intro hj <;> omega)]
      simp only
      cases useEot with
      | true =>
        have : ∀ j < 9, (! (llamaNamed.getD j "").toList.isPrefixOf (llamaEos true).toList)
            = true := by decide +kernel
        exact this j (by simpa using hj)
      | false =>
        have : ∀ j < 1, (! (llamaNamed.getD j "").toList.isPrefixOf (llamaEos false).toList)
            = true := by decide +kernel
        exact this j (by simpa using hj)
  have heosne : llamaEos useEot ≠ "" := by cases useEot <;> decide
  have henc : T.encoding.encode (text ++ llamaEos useEot).toList
      = ordinary text.toList ++ [ranks.length + if useEot then 9 else 1] := by
    have := C99_injected T.encoding text.toList [] (llamaEos useEot) _ heosne hstart (by
      intro l hl hsuf
      cases l with
      | nil => exact absurd rfl hl
      | cons c l =>
        apply hnone
        rintro rfl
        exact ht (hsuf.subset (by simp)))
    rw [String.toList_append]
    rw [List.append_nil] at this
    rw [this, hord]
    simp [Encoding.encode, Encoding.scan, hord, h0]
  have henc2 : T.encoding.encode text.toList = ordinary text.toList := by
    unfold Encoding.encode
    rw [scan_ordinary, hord, List.nil_append]
    intro l hl hsuf
    cases l with
    | nil => exact absurd rfl hl
    | cons c l =>
      apply hnone
      rintro rfl
      exact ht (hsuf.subset (by simp))
  simp only [Tiktoken.call, Tiktoken.frame, mapOk, hidx, henc, henc2]
  simp

example : '<' ∉ ("ab" : String).toList := by decide +kernel

/-- **C99.** `encode_as_tokens` of a tiktoken tokenizer gives one token per index, if it gives any.
`_partial`: it does not for every text, see `C99_half_character`. -/
theorem C99_tiktoken_tokens_partial (T : Tiktoken) (u : Utf8) (f : Frame) (text : String)
    (tokens : List String) (h : T.asTokens u f text = .ok tokens) :
    ∃ indices, T.call f text = .ok indices ∧ tokens.length = indices.length := by
  unfold Tiktoken.asTokens at h
  split at h
  · cases h
  · rename_i indices hi
    split at h
    · cases h
    · rename_i bs hbs
      exact ⟨indices, hi, (mapOk_length h).trans (mapOk_length hbs)⟩

/-- **C99, violation.** Text whose encoding has a token of half a character cannot be encoded as
tokens at all, although it can be encoded. -/
theorem C99_half_character (T : Tiktoken) (u : Utf8) (f : Frame) (text : String)
    (indices : List Nat) (bs : List (List UInt8)) (hc : T.call f text = .ok indices)
    (hb : mapOk T.encoding.bytesAt indices = .ok bs) :
    (∃ e, T.asTokens u f text = .error e) ↔ ∃ b ∈ bs, u.strict b = none := by
  unfold Tiktoken.asTokens
  simp only [hc, hb]
  rw [mapOk_error_iff]
  constructor
  · rintro ⟨b, hbm, e, he⟩
    refine ⟨b, hbm, ?_⟩
    cases hs : u.strict b with
    | none => rfl
    | some s => simp [hs] at he
  · rintro ⟨b, hbm, hs⟩
    exact ⟨b, hbm, .unicode, by simp [hs]⟩

/-- The letter é in two tokens of one byte. -/
def halves : Tiktoken :=
  ⟨⟨[([195], 0), ([169], 1)], [], fun text => if text = ['é'] then [0, 1] else []⟩, 2,
    ⟨2, none, none, none, none, none, none⟩⟩

example : halves.call ⟨[], []⟩ "é" = .ok [0, 1]
    ∧ mapOk halves.encoding.bytesAt [0, 1] = .ok [[195], [169]] := by
  refine ⟨?_, rfl⟩
  have h1 : ("é" : String).toList = ['é'] := by decide +kernel
  have h2 : halves.encoding.encode ['é'] = [0, 1] := by
    unfold Encoding.encode
    rw [scan_ordinary]
    · rfl
    · intro l _ _; rfl
  simp [Tiktoken.call, Tiktoken.frame, mapOk, h1, h2]

/-- **C99.** A tiktoken model refuses what it does not have: an encoder with a framing token that is neither a byte-pair token nor a
special one raises, and so does decoding an index that is neither. -/
theorem C99_tiktoken_refused (T : Tiktoken) :
    (∀ (f : Frame) (t text : String), t ∈ f.before ++ f.after → T.encoding.ranks.lookup (bytesOf t) = none →
      T.encoding.special.lookup t = none → T.call f text = .error .key)
    ∧ ∀ (u : Utf8) (indices : List Nat) (i : Nat), i ∈ indices → (∀ q ∈ T.encoding.ranks, q.2 ≠ i) →
      (∀ q ∈ T.encoding.special, q.2 ≠ i) → T.decode u false indices = .error .key := by
  have all : ∀ {α β : Type} (f : α → Except Refusal β) (l : List α), (∀ x e, f x = .error e → e = .key) →
      (∀ e, mapOk f l = .error e → e = .key) ∧ (∀ x ∈ l, f x = .error .key → mapOk f l = .error .key) := by
    intro α β f l hf
    induction l with
    | nil => exact ⟨fun e h => by simp [mapOk] at h, fun x hx => by simp at hx⟩
    | cons y l ih =>
      constructor
      · intro e h
        unfold mapOk at h
        cases hy : f y with
        | error e' =>
          simp only [hy, Except.error.injEq] at h
          exact h ▸ hf y e' hy
        | ok b =>
          simp only [hy] at h
          cases hl : mapOk f l with
          | error e' =>
            simp only [hl, Except.error.injEq] at h
            exact h ▸ ih.1 e' hl
          | ok bs => simp [hl] at h
      · intro x hx hfx
        unfold mapOk
        cases hy : f y with
        | error e' => simp only [hf y e' hy]
        | ok b =>
          rcases List.mem_cons.1 hx with rfl | hx
          · rw [hfx] at hy
            cases hy
          · simp only [ih.2 x hx hfx]
  constructor
  · intro f t text ht h1 h2
    have hs : T.encoding.single t = .error .key := by simp [Encoding.single, h1, h2]
    have hk : ∀ x e, T.encoding.single x = .error e → e = .key := by
      intro x e
      unfold Encoding.single
      grind
    have hf : T.frame f = .error .key := by
      unfold Tiktoken.frame
      rcases List.mem_append.1 ht with hb | ha
      · rw [(all _ f.before hk).2 t hb hs]
      · cases hp : mapOk T.encoding.single f.before with
        | error e => simp only [(all _ f.before hk).1 e hp]
        | ok pre => simp only [(all _ f.after hk).2 t ha hs]
    simp only [Tiktoken.call, hf]
  · intro u indices i hi h1 h2
    have hk : ∀ x e, T.encoding.bytesAt x = .error e → e = .key := by
      intro x e
      unfold Encoding.bytesAt
      grind
    have hs : T.encoding.bytesAt i = .error .key := by
      have a1 : T.encoding.ranks.find? (·.2 == i) = none := List.find?_eq_none.2 (fun q hq => by simpa using h1 q hq)
      have a2 : T.encoding.special.find? (·.2 == i) = none := List.find?_eq_none.2 (fun q hq => by simpa using h2 q hq)
      simp [Encoding.bytesAt, a1, a2]
    simp only [Tiktoken.decode, Bool.false_eq_true, if_false, (all _ indices hk).2 i hi hs]

/-! ## Hugging Face tokenizers -/

/-- The texts that calls of `HgTokenizer.decode` give, one after the other. -/
def decodedTexts (tok : HgLib) (s : HgState) : List (Bool × List Nat) → List String
  | [] => []
  | (skip, indices) :: calls =>
    (HgState.decode tok s skip indices).1
      :: decodedTexts tok (HgState.decode tok s skip indices).2 calls

/-- **C99.** Calls of `HgTokenizer.decode` that all ask the same of special tokens get what they
ask.  `_partial`: other calls do not, see `C99_hg_decoder`. -/
theorem C99_hg_decode_partial (tok : HgLib) (skip : Bool) (calls : List (Bool × List Nat))
    (h : ∀ c ∈ calls, c.1 = skip) :
    decodedTexts tok {} calls = calls.map (fun c => tok.decode c.1 c.2) := by
  have key : ∀ calls : List (Bool × List Nat), (∀ c ∈ calls, c.1 = skip) →
      decodedTexts tok ⟨some skip⟩ calls = calls.map (fun c => tok.decode c.1 c.2) := by
    intro calls
    induction calls with
    | nil => intro _; rfl
    | cons c calls ih =>
      intro h
      have hc := h c (by simp)
      have := ih (fun c hc => h c (by simp [hc]))
      simp only [decodedTexts, HgState.decode, HgState.createDecoder, List.map_cons, hc]
      rw [this]
  cases calls with
  | nil => rfl
  | cons c calls =>
    have hc := h c (by simp)
    have := key calls (fun c hc => h c (by simp [hc]))
    simp only [decodedTexts, HgState.decode, HgState.createDecoder, List.map_cons, hc]
    rw [this]

/-- **C99, violation.** Every later call decodes as the first one asked, whatever it asks. -/
theorem C99_hg_decoder (tok : HgLib) (first : Bool) (indices : List Nat)
    (calls : List (Bool × List Nat)) :
    decodedTexts tok {} ((first, indices) :: calls)
      = tok.decode first indices :: calls.map (fun c => tok.decode first c.2) := by
  have key : ∀ calls : List (Bool × List Nat),
      decodedTexts tok ⟨some first⟩ calls = calls.map (fun c => tok.decode first c.2) := by
    intro calls
    induction calls with
    | nil => rfl
    | cons c calls ih =>
      simp only [decodedTexts, HgState.decode, HgState.createDecoder, List.map_cons]
      rw [ih]
  simp only [decodedTexts, HgState.decode, HgState.createDecoder]
  rw [key]

end Fs2.Props
