import Verif.Models.LlamaLemmas
import Verif.Props.Rotary
import Mathlib.Tactic.Ring
import Mathlib.Tactic.NormNum

/-!
# C87: converting checkpoints loses nothing

Names of parameters are given by templates: a text in which `#` stands for the number of a layer. A key
has the form of a template if it is the text with a number in the place of `#`, followed by anything.
The specification of a key map is a table of pairs of templates.
-/

namespace Fs2.Props

open Interop
open Nn (permuteRotary permuteRotaryBack)

/-- The template of a text. -/
def template (s : String) : List Tok := s.toList.map fun c => if c = '#' then .num else .ch c

def templates (names : List (String × String)) : List (List Tok × List Tok) :=
  names.map fun e => (template e.1, template e.2)

/-- The text with the number `d` in the place of `#`. -/
def fill (s : String) (d : List Char) : Key := s.toList.flatMap fun c => if c = '#' then d else [c]

/-- The names of LLaMA parameters: Hugging Face, fairseq2. -/
def llamaNames : List (String × String) := [
  ("model.layers.#.self_attn.q_proj.", "decoder.layers.#.self_attn.q_proj."),
  ("model.layers.#.self_attn.k_proj.", "decoder.layers.#.self_attn.k_proj."),
  ("model.layers.#.self_attn.v_proj.", "decoder.layers.#.self_attn.v_proj."),
  ("model.layers.#.self_attn.o_proj.", "decoder.layers.#.self_attn.output_proj."),
  ("model.layers.#.post_attention_layernorm.", "decoder.layers.#.ffn_layer_norm."),
  ("model.layers.#.mlp.gate_proj.", "decoder.layers.#.ffn.gate_proj."),
  ("model.layers.#.mlp.down_proj.", "decoder.layers.#.ffn.output_proj."),
  ("model.layers.#.mlp.up_proj.", "decoder.layers.#.ffn.inner_proj."),
  ("model.layers.#.input_layernorm.", "decoder.layers.#.self_attn_layer_norm."),
  ("model.norm.", "decoder.layer_norm."),
  ("model.embed_tokens.", "decoder_frontend.embed."),
  ("lm_head.", "final_proj.")]

/-- The names of LLaMA parameters: reference implementation, fairseq2. -/
def refNames : List (String × String) := [
  ("layers.#.attention.wq.", "decoder.layers.#.self_attn.q_proj."),
  ("layers.#.attention.wk.", "decoder.layers.#.self_attn.k_proj."),
  ("layers.#.attention.wv.", "decoder.layers.#.self_attn.v_proj."),
  ("layers.#.attention.wo.", "decoder.layers.#.self_attn.output_proj."),
  ("layers.#.attention_norm.", "decoder.layers.#.self_attn_layer_norm."),
  ("layers.#.feed_forward.w1.", "decoder.layers.#.ffn.gate_proj."),
  ("layers.#.feed_forward.w2.", "decoder.layers.#.ffn.output_proj."),
  ("layers.#.feed_forward.w3.", "decoder.layers.#.ffn.inner_proj."),
  ("layers.#.ffn_norm.", "decoder.layers.#.ffn_layer_norm."),
  ("norm.", "decoder.layer_norm."),
  ("tok_embeddings.", "decoder_frontend.embed."),
  ("output.", "final_proj.")]

/-- The names of Qwen parameters: Hugging Face, fairseq2. -/
def qwenNames : List (String × String) := [
  ("model.layers.#.self_attn.q_proj.", "decoder.layers.#.self_attn.q_proj."),
  ("model.layers.#.self_attn.k_proj.", "decoder.layers.#.self_attn.k_proj."),
  ("model.layers.#.self_attn.v_proj.", "decoder.layers.#.self_attn.v_proj."),
  ("model.layers.#.self_attn.q_norm.", "decoder.layers.#.self_attn.q_norm."),
  ("model.layers.#.self_attn.k_norm.", "decoder.layers.#.self_attn.k_norm."),
  ("model.layers.#.self_attn.o_proj.", "decoder.layers.#.self_attn.output_proj."),
  ("model.layers.#.post_attention_layernorm.", "decoder.layers.#.ffn_layer_norm."),
  ("model.layers.#.mlp.up_proj.", "decoder.layers.#.ffn.inner_proj."),
  ("model.layers.#.mlp.gate_proj.", "decoder.layers.#.ffn.gate_proj."),
  ("model.layers.#.mlp.down_proj.", "decoder.layers.#.ffn.output_proj."),
  ("model.layers.#.input_layernorm.", "decoder.layers.#.self_attn_layer_norm."),
  ("model.norm.", "decoder.layer_norm."),
  ("model.embed_tokens.", "decoder_frontend.embed."),
  ("lm_head.", "final_proj.")]

/-- The names of OLMo parameters: Hugging Face, fairseq2. -/
def olmoNames : List (String × String) := [
  ("model.layers.#.self_attn.q_proj.", "decoder.layers.#.self_attn.q_proj."),
  ("model.layers.#.self_attn.k_proj.", "decoder.layers.#.self_attn.k_proj."),
  ("model.layers.#.self_attn.v_proj.", "decoder.layers.#.self_attn.v_proj."),
  ("model.layers.#.self_attn.o_proj.", "decoder.layers.#.self_attn.output_proj."),
  ("model.layers.#.self_attn.q_norm.", "decoder.layers.#.self_attn.q_norm."),
  ("model.layers.#.self_attn.k_norm.", "decoder.layers.#.self_attn.k_norm."),
  ("model.layers.#.post_attention_layernorm.", "decoder.layers.#.self_attn_layer_norm."),
  ("model.layers.#.post_feedforward_layernorm.", "decoder.layers.#.ffn_layer_norm."),
  ("model.layers.#.mlp.gate_proj.", "decoder.layers.#.ffn.gate_proj."),
  ("model.layers.#.mlp.down_proj.", "decoder.layers.#.ffn.output_proj."),
  ("model.layers.#.mlp.up_proj.", "decoder.layers.#.ffn.inner_proj."),
  ("model.norm.", "decoder.layer_norm."),
  ("model.embed_tokens.", "decoder_frontend.embed."),
  ("lm_head.", "final_proj.")]

/-- The keys of the dictionary differ from each other. -/
def Distinct {V : Type} (sd : Dict V) : Prop := (sd.map (·.1)).Nodup

/-- Every key either has the form of a name on the left of the table, or has no form of the right. -/
def AllOurs {V : Type} (km : List (List Tok × List Tok)) (sd : Dict V) : Prop := ∀ e ∈ sd, Ours km e.1

/-! ## Any key map -/

/-- **Renaming keys.** Take a key map whose patterns are the texts of templates with at most one number,
such that no key has the form of two patterns. Then converting a key never raises. A key of the form of a
pattern becomes the replacement with the same number and the same rest; all other keys stay. -/
theorem C87_keys {km : List (List Tok × List Tok)} (h : Good km) (key : Key) :
    (∃ key', getConvertedKey (texts km) key = some key') ∧
    (∀ key', getConvertedKey (texts km) key = some key' ↔
      (∃ e ∈ km, ∃ d rest, Number d ∧ key = written d e.1 ++ rest ∧ key' = written d e.2 ++ rest) ∨
      ((∀ e ∈ km, ∀ d rest, Number d → key ≠ written d e.1 ++ rest) ∧ key' = key)) := by
  refine ⟨⟨_, rename_some h key⟩, fun key' => ?_⟩
  rw [converted_iff h]
  constructor
  · rintro (⟨e, he, d, rest, ⟨h1, h2⟩, h3⟩ | ⟨hn, rfl⟩)
    · exact Or.inl ⟨e, he, d, rest, h1, h2, h3⟩
    · exact Or.inr ⟨fun e he d rest hd hk => hn e he d rest ⟨hd, hk⟩, rfl⟩
  · rintro (⟨e, he, d, rest, h1, h2, h3⟩ | ⟨hn, rfl⟩)
    · exact Or.inl ⟨e, he, d, rest, ⟨h1, h2⟩, h3⟩
    · exact Or.inr ⟨fun e he d rest hf => hn e he d rest hf.1 hf.2, rfl⟩

/-- **The reverse key map** of such a map has the replacements as patterns and the patterns as
replacements, in the same order. It is enough that the templates are plain and the replacements differ. -/
theorem C87_reverse {km : List (List Tok × List Tok)} (h : ∀ e ∈ km, Plain e.1 ∧ Plain e.2)
    (hn : (km.map (·.2)).Nodup) :
    createReverseKeyMap (texts km) = texts (km.map fun e => (e.2, e.1)) :=
  reverse_texts h hn

/-- **There and back.** Converting a dictionary with such a key map keeps its values and their order and
gives distinct keys, and converting the result with the reverse key map gives the dictionary back. -/
theorem C87_roundtrip {V : Type} {km : List (List Tok × List Tok)} (h : Good km) {sd : Dict V}
    (hd : Distinct sd) (ho : AllOurs km sd) :
    ∃ sd', convertStateDict sd (texts km) = some sd' ∧ Distinct sd' ∧
      sd'.map (·.2) = sd.map (·.2) ∧
      (∀ i : Nat, ∀ e : Key × V, ∀ e' : Key × V, sd[i]? = some e → sd'[i]? = some e' →
        Renames km e.1 e'.1) ∧
      convertStateDict sd' (createReverseKeyMap (texts km)) = some sd := by
  refine ⟨_, convert_eq h hd ho, ?_, ?_, ?_, ?_⟩
  · rw [Distinct, List.map_map]
    exact rename_nodup h hd ho
  · rw [List.map_map]; rfl
  · intro i e e' h1 h2
    rw [List.getElem?_map, h1] at h2
    cases h2
    exact rename_spec h e.1
  · rw [h.reverse]
    exact convert_back h hd ho

/-- Turns literal texts into lists of characters and decides. -/
local macro "decide_texts" : tactic =>
  `(tactic| ((repeat rw [String.toList_ofList]) <;> decide +kernel))

theorem templates_good : Good (templates llamaNames) ∧ Good (templates refNames) ∧
    Good (templates qwenNames) ∧ Good (templates olmoNames) :=
  ⟨goodB_spec (by
      simp only [templates, llamaNames, template, List.map_cons, List.map_nil]; decide_texts),
    goodB_spec (by simp only [templates, refNames, template, List.map_cons, List.map_nil]; decide_texts),
    goodB_spec (by simp only [templates, qwenNames, template, List.map_cons, List.map_nil]; decide_texts),
    goodB_spec (by simp only [templates, olmoNames, template, List.map_cons, List.map_nil]; decide_texts)⟩

/-- **The key maps** of LLaMA, Qwen and OLMo say what the tables say, and they satisfy the conditions of
the theorems above. The map for exporting to the reference format is the reverse of the one for
importing from it. -/
theorem C87_tables :
    (llamaKeyMap = texts (templates llamaNames) ∧ Good (templates llamaNames)) ∧
    (refKeyMap = texts (templates refNames) ∧ Good (templates refNames)) ∧
    (qwenKeyMap = texts (templates qwenNames) ∧ Good (templates qwenNames)) ∧
    (olmoKeyMap = texts (templates olmoNames) ∧ Good (templates olmoNames)) ∧
    toRefKeyMap = createReverseKeyMap refKeyMap := by
  obtain ⟨h1, h2, h3, h4⟩ := templates_good
  refine ⟨⟨?_, h1⟩, ⟨?_, h2⟩, ⟨?_, h3⟩, ⟨?_, h4⟩, ?_⟩
  · simp only [templates, llamaNames, template, llamaKeyMap, keyMap, List.map_cons, List.map_nil]
    decide_texts
  · simp only [templates, refNames, template, refKeyMap, keyMap, List.map_cons, List.map_nil]
    decide_texts
  · simp only [templates, qwenNames, template, qwenKeyMap, keyMap, List.map_cons, List.map_nil]
    decide_texts
  · simp only [templates, olmoNames, template, olmoKeyMap, keyMap, List.map_cons, List.map_nil]
    decide_texts
  · simp only [toRefKeyMap, refKeyMap, keyMap, List.map_cons, List.map_nil]
    decide_texts

theorem written_fill (d : List Char) (s : String) : written d (template s) = fill s d := by
  simp only [written, template, fill, List.flatMap_map]
  congr 1
  funext c
  by_cases h : c = '#'
  · simp [h]
  · simp [h]

/-- **Names.** With every one of the key maps, for every pair of the table, all numbers and all suffixes:
the left name becomes the right name, and with the reverse map the right name becomes the left name. -/
theorem C87_names {m : List (Key × Key)} {names : List (String × String)}
    (hm : (m, names) ∈ [(llamaKeyMap, llamaNames), (refKeyMap, refNames), (qwenKeyMap, qwenNames),
      (olmoKeyMap, olmoNames)]) {left right : String} (hp : (left, right) ∈ names)
    {d : List Char} (hd : Number d) (rest : List Char) :
    getConvertedKey m (fill left d ++ rest) = some (fill right d ++ rest) ∧
    getConvertedKey (createReverseKeyMap m) (fill right d ++ rest) = some (fill left d ++ rest) := by
  have key : m = texts (templates names) ∧ Good (templates names) := by
    obtain ⟨h1, h2, h3, h4, -⟩ := C87_tables
    simp only [List.mem_cons, List.not_mem_nil, or_false, Prod.mk.injEq] at hm
    rcases hm with ⟨rfl, rfl⟩ | ⟨rfl, rfl⟩ | ⟨rfl, rfl⟩ | ⟨rfl, rfl⟩
    · exact h1
    · exact h2
    · exact h3
    · exact h4
  obtain ⟨rfl, hg⟩ := key
  have hmem : (template left, template right) ∈ templates names := List.mem_map.2 ⟨_, hp, rfl⟩
  rw [hg.reverse, converted_iff hg, converted_iff hg.swap, ← written_fill, ← written_fill]
  exact ⟨Or.inl ⟨_, hmem, d, rest, ⟨hd, rfl⟩, rfl⟩,
    Or.inl ⟨(template right, template left), mem_swap.2 hmem, d, rest, ⟨hd, rfl⟩, rfl⟩⟩

/-- **Keys of both formats in one dictionary are lost.** Without the condition that the keys are those of
one side, two entries can end under one key. -/
theorem C87_collision_negation : ∃ sd sd' : Dict Nat, Distinct sd ∧
    convertStateDict sd llamaKeyMap = some sd' ∧ sd.length = 2 ∧ sd'.length = 1 :=
  ⟨[("lm_head.weight".toList, 0), ("final_proj.weight".toList, 1)], [("final_proj.weight".toList, 1)],
    by unfold Distinct; decide_texts, by
      simp only [llamaKeyMap, keyMap, List.map_cons, List.map_nil]
      decide_texts, rfl, rfl⟩

/-! ## LLaMA -/

/-- The key of a query or key projection of one of the layers, with its number of heads. -/
def RotaryKey (cfg : Config) (pre : String) (key : Key) (heads : Nat) : Prop :=
  ∃ idx, idx < cfg.numLayers ∧
    ((key = (pre ++ toString idx ++ ".self_attn.q_proj.weight").toList ∧ heads = cfg.numAttnHeads) ∨
     (key = (pre ++ toString idx ++ ".self_attn.k_proj.weight").toList ∧ heads = cfg.numKeyValueHeads))

/-- All query and key weights are there, with as many rows as their heads have dimensions. -/
def Complete {α : Type} (cfg : Config) (pre : String) (sd : Tensors α) : Prop :=
  ∀ key heads, RotaryKey cfg pre key heads → ∃ w : List α, (key, w) ∈ sd ∧
    w.length = heads * (cfg.modelDim / cfg.numAttnHeads)

theorem layerKey_eq (pre : String) (idx : Nat) (post : String) :
    (pre ++ toString idx ++ post).toList = layerKey pre idx post := by
  simp [layerKey, toString]

theorem rotaryKey_iff {cfg : Config} {pre : String} {key : Key} {H : Nat} :
    RotaryKey cfg pre key H ↔ headsOf cfg pre cfg.numLayers key = some H := by
  rw [headsOf_some]
  simp only [RotaryKey, layerKey_eq]
  rfl

variable {α : Type}

theorem rotaryKey_none {cfg : Config} {pre : String} {key : Key} :
    (∀ H, ¬ RotaryKey cfg pre key H) ↔ headsOf cfg pre cfg.numLayers key = none := by
  simp only [rotaryKey_iff]
  cases headsOf cfg pre cfg.numLayers key <;> simp

theorem complete_iff {permute : Nat → List α → Option (List α)} {cfg : Config} {pre : String}
    {sd : Tensors α} (hd : Distinct sd)
    (hp : ∀ H w, permute H w = none ↔ w.length ≠ H * (cfg.modelDim / cfg.numAttnHeads)) :
    LayersReady permute cfg pre cfg.numLayers sd ↔ Complete cfg pre sd := by
  have hp' : ∀ H w, w.length = H * (cfg.modelDim / cfg.numAttnHeads) ↔ ∃ w', permute H w = some w' := by
    intro H w
    have := hp H w
    cases h : permute H w with
    | none => rw [h] at this; simpa using this.1 rfl
    | some w' => rw [h] at this; simp at this; simp [this]
  constructor
  · intro h key H hk
    obtain ⟨idx, hi, ⟨rfl, rfl⟩ | ⟨rfl, rfl⟩⟩ := headsOf_some.1 (rotaryKey_iff.1 hk)
    · obtain ⟨q, k, q', k', h1, h2, h3, h4⟩ := h idx hi
      exact ⟨q, get?_mem h1, (hp' _ _).2 ⟨_, h3⟩⟩
    · obtain ⟨q, k, q', k', h1, h2, h3, h4⟩ := h idx hi
      exact ⟨k, get?_mem h2, (hp' _ _).2 ⟨_, h4⟩⟩
  · intro h idx hi
    obtain ⟨q, hq, hql⟩ := h _ _ (rotaryKey_iff.2 (headsOf_q cfg pre hi))
    obtain ⟨k, hk, hkl⟩ := h _ _ (rotaryKey_iff.2 (headsOf_k cfg pre hi))
    obtain ⟨q', hq'⟩ := (hp' _ _).1 hql
    obtain ⟨k', hk'⟩ := (hp' _ _).1 hkl
    exact ⟨q, k, q', k', get?_of_mem hd hq, get?_of_mem hd hk, hq', hk'⟩

/-! ### Names of single keys -/

def hg : List (List Tok × List Tok) := templates llamaNames

def hgEmbed : Key := "model.embed_tokens.weight".toList
def hgHead : Key := "lm_head.weight".toList
def fsEmbed : Key := "decoder_frontend.embed.weight".toList
def fsHead : Key := "final_proj.weight".toList

/-- A map that names the embedding table and the head in the usual way. -/
structure Usual (km : List (List Tok × List Tok)) : Prop where
  good : Good km
  embed : Renames km hgEmbed fsEmbed
  head : Renames km hgHead fsHead

private theorem usual_of {names : List (String × String)} (hg : Good (templates names))
    (h1 : ("model.embed_tokens.", "decoder_frontend.embed.") ∈ names)
    (h2 : ("lm_head.", "final_proj.") ∈ names) : Usual (templates names) := by
  have hn : Number ['0'] := ⟨by simp, by decide⟩
  have e1 : hgEmbed = written ['0'] (template "model.embed_tokens.") ++ "weight".toList := by
    unfold hgEmbed template; decide_texts
  have e2 : fsEmbed = written ['0'] (template "decoder_frontend.embed.") ++ "weight".toList := by
    unfold fsEmbed template; decide_texts
  have e3 : hgHead = written ['0'] (template "lm_head.") ++ "weight".toList := by
    unfold hgHead template; decide_texts
  have e4 : fsHead = written ['0'] (template "final_proj.") ++ "weight".toList := by
    unfold fsHead template; decide_texts
  exact ⟨hg, Or.inl ⟨_, List.mem_map.2 ⟨_, h1, rfl⟩, ['0'], "weight".toList, ⟨hn, e1⟩, e2⟩,
    Or.inl ⟨_, List.mem_map.2 ⟨_, h2, rfl⟩, ['0'], "weight".toList, ⟨hn, e3⟩, e4⟩⟩

theorem usual_llama : Usual (templates llamaNames) :=
  usual_of templates_good.1 (by simp [llamaNames]) (by simp [llamaNames])

theorem usual_qwen : Usual (templates qwenNames) :=
  usual_of templates_good.2.2.1 (by simp [qwenNames]) (by simp [qwenNames])

theorem usual_olmo : Usual (templates olmoNames) :=
  usual_of templates_good.2.2.2 (by simp [olmoNames]) (by simp [olmoNames])

private theorem written_append (d : List Char) (a b : List Tok) :
    written d (a ++ b) = written d a ++ written d b := by
  simp [written]

private theorem written_chars (d : List Char) : ∀ l : List Char, written d (l.map Tok.ch) = l
  | [] => rfl
  | c :: l => congrArg (c :: ·) (written_chars d l)

/-- How the query and key weights are renamed. -/
theorem rename_layers (idx : Nat) :
    Renames hg (layerKey "model.layers." idx qPost) (layerKey "decoder.layers." idx qPost) ∧
    Renames hg (layerKey "model.layers." idx kPost) (layerKey "decoder.layers." idx kPost) := by
  have key : ∀ (a b x : String), template a = "model.layers.".toList.map Tok.ch ++
      (Tok.num :: x.toList.map Tok.ch) → template b = "decoder.layers.".toList.map Tok.ch ++
      (Tok.num :: x.toList.map Tok.ch) → (a, b) ∈ llamaNames → ∀ post : String,
      post.toList = x.toList ++ "weight".toList →
      Renames hg (layerKey "model.layers." idx post) (layerKey "decoder.layers." idx post) := by
    intro a b x ha hb hm post hp
    refine Or.inl ⟨_, List.mem_map.2 ⟨_, hm, rfl⟩, (Nat.repr idx).toList, "weight".toList,
      ⟨repr_number idx, ?_⟩, ?_⟩
    · simp only [ha, written_append, written_chars, layerKey, hp]
      have : written (Nat.repr idx).toList (Tok.num :: x.toList.map Tok.ch) =
        (Nat.repr idx).toList ++ x.toList := congrArg _ (written_chars _ _)
      rw [this]
      simp only [List.append_assoc]
    · simp only [hb, written_append, written_chars, layerKey, hp]
      have : written (Nat.repr idx).toList (Tok.num :: x.toList.map Tok.ch) =
        (Nat.repr idx).toList ++ x.toList := congrArg _ (written_chars _ _)
      rw [this]
      simp only [List.append_assoc]
  exact ⟨key "model.layers.#.self_attn.q_proj." "decoder.layers.#.self_attn.q_proj."
      ".self_attn.q_proj." (by unfold template; decide_texts) (by unfold template; decide_texts)
      (by simp [llamaNames]) _ (by unfold qPost; decide_texts),
    key "model.layers.#.self_attn.k_proj." "decoder.layers.#.self_attn.k_proj."
      ".self_attn.k_proj." (by unfold template; decide_texts) (by unfold template; decide_texts)
      (by simp [llamaNames]) _ (by unfold kPost; decide_texts)⟩

/-! ### Permuting, renaming and back -/

theorem rename_inj {km : List (List Tok × List Tok)} (h : Good km) {a b : Key} (ha : Ours km a)
    (hb : Ours km b) (hab : rename km a = rename km b) : a = b := by
  rw [← (rename_back h ha).1, hab, (rename_back h hb).1]

theorem ours_of_fits {km : List (List Tok × List Tok)} {a b : Key} (h : Renames km a b) (hne : a ≠ b) :
    Ours km a := by
  rcases h with ⟨e, he, d, rest, hf, -⟩ | ⟨-, rfl⟩
  · exact Or.inl ⟨e, he, d, rest, hf⟩
  · exact absurd rfl hne

/-- The same layers are named on both sides. -/
structure SameLayers (km : List (List Tok × List Tok)) (pre pre' : String) : Prop where
  q : ∀ idx, Renames km (layerKey pre idx qPost) (layerKey pre' idx qPost)
  k : ∀ idx, Renames km (layerKey pre idx kPost) (layerKey pre' idx kPost)
  oursQ : ∀ idx, Ours km (layerKey pre idx qPost)
  oursK : ∀ idx, Ours km (layerKey pre idx kPost)

theorem headsOf_rename {km : List (List Tok × List Tok)} (h : Good km) {pre pre' : String}
    (hl : SameLayers km pre pre') (cfg : Config) (n : Nat) {key : Key} (ho : Ours km key) :
    headsOf cfg pre' n (rename km key) = headsOf cfg pre n key := by
  apply Option.ext
  intro H
  rw [headsOf_some, headsOf_some]
  constructor
  · rintro ⟨idx, hi, ⟨hk, hH⟩ | ⟨hk, hH⟩⟩
    · rw [← rename_eq h (hl.q idx)] at hk
      exact ⟨idx, hi, Or.inl ⟨rename_inj h ho (hl.oursQ idx) hk, hH⟩⟩
    · rw [← rename_eq h (hl.k idx)] at hk
      exact ⟨idx, hi, Or.inr ⟨rename_inj h ho (hl.oursK idx) hk, hH⟩⟩
  · rintro ⟨idx, hi, ⟨rfl, hH⟩ | ⟨rfl, hH⟩⟩
    · exact ⟨idx, hi, Or.inl ⟨rename_eq h (hl.q idx), hH⟩⟩
    · exact ⟨idx, hi, Or.inr ⟨rename_eq h (hl.k idx), hH⟩⟩

/-- The dictionary after permuting and renaming. -/
def moved (km : List (List Tok × List Tok)) (permute : Nat → List α → Option (List α)) (cfg : Config)
    (pre : String) (sd : Tensors α) : Tensors α :=
  (newValues permute cfg pre cfg.numLayers sd).map fun e => (rename km e.1, e.2)

theorem moved_eq (km : List (List Tok × List Tok)) (permute : Nat → List α → Option (List α))
    (cfg : Config) (pre : String) (sd : Tensors α) :
    moved km permute cfg pre sd =
      sd.map fun e => (rename km e.1, newValue permute cfg pre cfg.numLayers e.1 e.2) := by
  simp [moved, newValues]

theorem moved_distinct {km : List (List Tok × List Tok)} (h : Good km)
    {permute : Nat → List α → Option (List α)} {cfg : Config} {pre : String} {sd : Tensors α}
    (hd : Distinct sd) (ho : AllOurs km sd) : Distinct (moved km permute cfg pre sd) := by
  rw [Distinct, moved_eq, List.map_map]
  exact rename_nodup h hd ho

theorem moved_ours {km : List (List Tok × List Tok)} (h : Good km)
    {permute : Nat → List α → Option (List α)} {cfg : Config} {pre : String} {sd : Tensors α}
    (ho : AllOurs km sd) : AllOurs (swap km) (moved km permute cfg pre sd) := by
  intro e he
  rw [moved_eq, List.mem_map] at he
  obtain ⟨e', he', rfl⟩ := he
  exact (rename_back h (ho e' he')).2

theorem newValues_distinct {permute : Nat → List α → Option (List α)} {cfg : Config} {pre : String}
    {n : Nat} {sd : Tensors α} (hd : Distinct sd) : Distinct (newValues permute cfg pre n sd) := by
  rw [Distinct, newValues, List.map_map]
  exact hd

theorem newValues_ours {km : List (List Tok × List Tok)} {permute : Nat → List α → Option (List α)}
    {cfg : Config} {pre : String} {n : Nat} {sd : Tensors α} (ho : AllOurs km sd) :
    AllOurs km (newValues permute cfg pre n sd) := by
  intro e he
  rw [newValues, List.mem_map] at he
  obtain ⟨e', he', rfl⟩ := he
  exact ho e' he'

/-- What a ready dictionary has at an entry of a layer. -/
theorem ready_entry {permute : Nat → List α → Option (List α)} {cfg : Config} {pre : String} {n : Nat}
    {sd : Tensors α} (hd : Distinct sd) (hr : LayersReady permute cfg pre n sd) {k : Key} {v : List α}
    (hm : (k, v) ∈ sd) {H : Nat} (hh : headsOf cfg pre n k = some H) :
    ∃ v', permute H v = some v' := by
  obtain ⟨idx, hi, ⟨rfl, rfl⟩ | ⟨rfl, rfl⟩⟩ := headsOf_some.1 hh
  · obtain ⟨q, k, q', k', h1, h2, h3, h4⟩ := hr idx hi
    rw [get?_of_mem hd hm] at h1
    cases h1
    exact ⟨_, h3⟩
  · obtain ⟨q, k, q', k', h1, h2, h3, h4⟩ := hr idx hi
    rw [get?_of_mem hd hm] at h2
    cases h2
    exact ⟨_, h4⟩

theorem moved_back {km : List (List Tok × List Tok)} (h : Good km) {pre pre' : String}
    (hl : SameLayers km pre pre') {permute permute' : Nat → List α → Option (List α)}
    (hinv : ∀ H w w', permute H w = some w' → permute' H w' = some w) {cfg : Config} {sd : Tensors α}
    (hd : Distinct sd) (ho : AllOurs km sd) (hr : LayersReady permute cfg pre cfg.numLayers sd) :
    LayersReady permute' cfg pre' cfg.numLayers (moved km permute cfg pre sd) ∧
    newValues permute' cfg pre' cfg.numLayers (moved km permute cfg pre sd) =
      sd.map fun e => (rename km e.1, e.2) := by
  have hval : ∀ k v H v', (k, v) ∈ sd → headsOf cfg pre cfg.numLayers k = some H →
      permute H v = some v' → (rename km k, v') ∈ moved km permute cfg pre sd := by
    intro k v H v' hm hh hp
    rw [moved_eq, List.mem_map]
    refine ⟨(k, v), hm, ?_⟩
    simp [newValue, hh, hp]
  constructor
  · intro idx hi
    obtain ⟨q, k, q', k', h1, h2, h3, h4⟩ := hr idx hi
    refine ⟨q', k', q, k, ?_, ?_, hinv _ _ _ h3, hinv _ _ _ h4⟩
    · rw [← rename_eq h (hl.q idx)]
      exact get?_of_mem (moved_distinct h hd ho) (hval _ _ _ _ (get?_mem h1) (headsOf_q cfg pre hi) h3)
    · rw [← rename_eq h (hl.k idx)]
      exact get?_of_mem (moved_distinct h hd ho) (hval _ _ _ _ (get?_mem h2) (headsOf_k cfg pre hi) h4)
  · rw [newValues, moved_eq, List.map_map]
    apply List.map_congr_left
    intro e he
    simp only [Function.comp_apply, Prod.mk.injEq, true_and]
    simp only [newValue, headsOf_rename h hl cfg _ (ho e he)]
    cases hh : headsOf cfg pre cfg.numLayers e.1 with
    | none => rfl
    | some H =>
      obtain ⟨v', hv'⟩ := ready_entry hd hr (k := e.1) (v := e.2) he hh
      simp [hv', hinv _ _ _ hv']

theorem hg_layers : SameLayers hg "model.layers." "decoder.layers." where
  q idx := (rename_layers idx).1
  k idx := (rename_layers idx).2
  oursQ idx := ours_of_fits (rename_layers idx).1 (by
    intro h
    have := congrArg List.head? h
    simp [layerKey] at this)
  oursK idx := ours_of_fits (rename_layers idx).2 (by
    intro h
    have := congrArg List.head? h
    simp [layerKey] at this)

theorem SameLayers.swap {km : List (List Tok × List Tok)} {pre pre' : String}
    (h : SameLayers km pre pre') : SameLayers (swap km) pre' pre where
  q idx := (renames_back (h.oursQ idx) (h.q idx)).1
  k idx := (renames_back (h.oursK idx) (h.k idx)).1
  oursQ idx := (renames_back (h.oursQ idx) (h.q idx)).2
  oursK idx := (renames_back (h.oursK idx) (h.k idx)).2

/-! ### Tied embeddings -/

theorem not_layer_key {pre : String} {key : Key} (h : ¬ pre.toList <+: key) (cfg : Config) (n : Nat) :
    headsOf cfg pre n key = none := by
  cases hh : headsOf cfg pre n key with
  | none => rfl
  | some H =>
    obtain ⟨idx, -, ⟨rfl, -⟩ | ⟨rfl, -⟩⟩ := headsOf_some.1 hh
    · exact absurd (List.prefix_append _ _) h
    · exact absurd (List.prefix_append _ _) h

theorem fsHead_no_layer (cfg : Config) (n : Nat) : headsOf cfg "decoder.layers." n fsHead = none :=
  not_layer_key (by unfold fsHead; decide_texts) cfg n

theorem fsEmbed_no_layer (cfg : Config) (n : Nat) : headsOf cfg "decoder.layers." n fsEmbed = none :=
  not_layer_key (by unfold fsEmbed; decide_texts) cfg n

theorem hgEmbed_no_layer (cfg : Config) (n : Nat) : headsOf cfg "model.layers." n hgEmbed = none :=
  not_layer_key (by unfold hgEmbed; decide_texts) cfg n

theorem hgHead_no_layer (cfg : Config) (n : Nat) : headsOf cfg "model.layers." n hgHead = none :=
  not_layer_key (by unfold hgHead; decide_texts) cfg n

theorem Usual.oursHead {km : List (List Tok × List Tok)} (h : Usual km) : Ours km hgHead :=
  ours_of_fits h.head (by unfold hgHead fsHead; decide_texts)

theorem Usual.oursEmbed {km : List (List Tok × List Tok)} (h : Usual km) : Ours km hgEmbed :=
  ours_of_fits h.embed (by unfold hgEmbed fsEmbed; decide_texts)

theorem keys_moved {km : List (List Tok × List Tok)} {permute : Nat → List α → Option (List α)}
    {cfg : Config} {pre : String} {sd : Tensors α} :
    (moved km permute cfg pre sd).map (·.1) = sd.map fun e => rename km e.1 := by
  rw [moved_eq, List.map_map]
  rfl

/-- Only the head is renamed to the head. -/
theorem mem_head_iff {km : List (List Tok × List Tok)} (h : Good km) {a b : Key} (hr : Renames km a b)
    (ha : Ours km a) {sd : Tensors α} (ho : AllOurs km sd) :
    b ∈ (sd.map fun e => rename km e.1) ↔ a ∈ sd.map (·.1) := by
  simp only [List.mem_map]
  constructor
  · rintro ⟨e, he, hb⟩
    rw [← rename_eq h hr] at hb
    exact ⟨e, he, rename_inj h (ho e he) ha hb⟩
  · rintro ⟨e, he, rfl⟩
    exact ⟨e, he, rename_eq h hr⟩

theorem get?_append_left {V : Type} {a b : Dict V} {k : Key} {v : V} (h : Dict.get? a k = some v) :
    Dict.get? (a ++ b) k = some v := by
  simp only [Dict.get?, List.find?_append, Option.map_eq_some_iff] at h ⊢
  obtain ⟨e, he, hv⟩ := h
  exact ⟨e, by rw [he]; rfl, hv⟩

theorem filter_last {V : Type} {sd : Dict V} {k : Key} {v : V} (h : k ∉ sd.map (·.1)) :
    (sd ++ [(k, v)]).filter (fun e => !(e.1 == k)) = sd := by
  rw [List.filter_append]
  have h1 : sd.filter (fun e => !(e.1 == k)) = sd := by
    rw [List.filter_eq_self]
    intro e he
    simp only [Bool.not_eq_true', beq_eq_false_iff_ne, ne_eq]
    exact fun hk => h (List.mem_map.2 ⟨e, he, hk⟩)
  rw [h1]
  simp

theorem usual_hg : Usual hg := usual_llama

theorem tie_some {cfg : Config} {sd : Tensors α} {v : List α} (h : Dict.get? sd fsEmbed = some v) :
    tieEmbeddings cfg sd = some (if cfg.tiedEmbeddings then Dict.put sd fsHead v else sd) := by
  unfold tieEmbeddings
  cases cfg.tiedEmbeddings with
  | false => rfl
  | true =>
    have h' : Dict.get? sd "decoder_frontend.embed.weight".toList = some v := h
    simp only [if_true, h']
    rfl

theorem permute_none (H D : Nat) (hD : D % 2 = 0) (w : List α) :
    permuteRotary H D w = none ↔ w.length ≠ H * D := (C86_permute H D hD w).1

theorem permuteBack_none (H D : Nat) (hD : D % 2 = 0) (w : List α) :
    permuteRotaryBack H D w = none ↔ w.length ≠ H * D := (C86_permute H D hD w).2.1

/-- The dimension of a head. -/
def headDim (cfg : Config) : Nat := cfg.modelDim / cfg.numAttnHeads

/-- The converter on a dictionary of Hugging Face, in one equation. -/
theorem convertLlama_hg {cfg : Config} (hH : cfg.numAttnHeads ≠ 0) {sd : Tensors α} (hd : Distinct sd)
    (ho : AllOurs hg sd) {v : List α} (hE : (hgEmbed, v) ∈ sd)
    (hr : LayersReady (fun H => permuteRotary H (headDim cfg)) cfg "model.layers." cfg.numLayers sd) :
    convertLlama cfg sd = some
      (if cfg.tiedEmbeddings then
        Dict.put (moved hg (fun H => permuteRotary H (headDim cfg)) cfg "model.layers." sd) fsHead v
       else moved hg (fun H => permuteRotary H (headDim cfg)) cfg "model.layers." sd,
       newValues (fun H => permuteRotary H (headDim cfg)) cfg "model.layers." cfg.numLayers sd) := by
  have hu : Usual hg := usual_llama
  have hhas : Dict.has sd "model.embed_tokens.weight".toList = true :=
    has_iff.2 (List.mem_map.2 ⟨_, hE, rfl⟩)
  have hemb : (fsEmbed, v) ∈
      moved hg (fun H => permuteRotary H (headDim cfg)) cfg "model.layers." sd := by
    rw [moved_eq, List.mem_map]
    refine ⟨_, hE, ?_⟩
    simp only [newValue, hgEmbed_no_layer]
    rw [rename_eq hu.good hu.embed]
  have htie := tie_some (cfg := cfg) (get?_of_mem (moved_distinct hu.good hd ho) hemb)
  have hpl := (permuteLayers_spec (fun H => permuteRotary (α := α) H (headDim cfg)) cfg "model.layers." sd
    hd cfg.numLayers).1 hr
  have hcv : convertStateDict
      (newValues (fun H => permuteRotary H (headDim cfg)) cfg "model.layers." cfg.numLayers sd)
      llamaKeyMap = some (moved hg (fun H => permuteRotary H (headDim cfg)) cfg "model.layers." sd) := by
    rw [show llamaKeyMap = texts hg from C87_tables.1.1]
    exact convert_eq hu.good (newValues_distinct hd) (newValues_ours ho)
  simp only [headDim] at hpl hcv htie ⊢
  unfold convertLlama
  rw [if_pos hhas, if_neg hH]
  simp only [hpl, hcv, htie, Option.bind_eq_bind, Option.bind_some]

theorem convertLlama_raises {cfg : Config} {sd : Tensors α} (hd : Distinct sd) {v : List α}
    (hE : (hgEmbed, v) ∈ sd) (hn : cfg.numAttnHeads = 0 ∨
      ¬ LayersReady (fun H => permuteRotary H (headDim cfg)) cfg "model.layers." cfg.numLayers sd) :
    convertLlama cfg sd = none := by
  have hhas : Dict.has sd "model.embed_tokens.weight".toList = true :=
    has_iff.2 (List.mem_map.2 ⟨_, hE, rfl⟩)
  unfold convertLlama
  rw [if_pos hhas]
  rcases hn with hn | hn
  · rw [if_pos hn]
  · by_cases hH : cfg.numAttnHeads = 0
    · rw [if_pos hH]
    · rw [if_neg hH]
      have hpl := (permuteLayers_spec (fun H => permuteRotary (α := α) H (headDim cfg)) cfg
        "model.layers." sd hd cfg.numLayers).2 hn
      simp only [headDim] at hpl
      simp only [hpl, Option.bind_eq_bind, Option.bind_none]

/-- **When importing raises.** For an even dimension of the heads: importing a Hugging Face LLaMA
dictionary raises exactly if there are no attention heads, or a query or key weight of one of the layers
is missing or has not as many rows as its heads have dimensions. -/
theorem C87_llama_raises (cfg : Config) (hD : cfg.modelDim / cfg.numAttnHeads % 2 = 0)
    {sd : Tensors α} (hd : Distinct sd) (ho : AllOurs (templates llamaNames) sd)
    (hE : hgEmbed ∈ sd.map (·.1)) :
    convertLlama cfg sd = none ↔ cfg.numAttnHeads = 0 ∨ ¬ Complete cfg "model.layers." sd := by
  have ho : AllOurs hg sd := ho
  obtain ⟨⟨k, v⟩, hm, hk⟩ := List.mem_map.1 hE
  have hk' : k = hgEmbed := hk
  subst hk'
  rw [← complete_iff (permute := fun H => permuteRotary H (headDim cfg)) hd
    (fun H w => permute_none H _ hD w)]
  constructor
  · intro h
    by_cases hH : cfg.numAttnHeads = 0
    · exact Or.inl hH
    · refine Or.inr fun hr => ?_
      rw [convertLlama_hg hH hd ho hm hr] at h
      cases h
  · exact convertLlama_raises hd hm

/-- **What importing gives.** All parameters arrive under their fairseq2 names: query and key weights
with reordered rows, everything else as it is. With tied embeddings the head is the embedding table.
Nothing else is in the result, and no two entries have the same key. -/
theorem C87_llama_import (cfg : Config) {sd : Tensors α} (hd : Distinct sd)
    (ho : AllOurs (templates llamaNames) sd) (hE : hgEmbed ∈ sd.map (·.1)) {out caller : Tensors α}
    (h : convertLlama cfg sd = some (out, caller)) :
    Distinct out ∧
    (∀ k v k', (k, v) ∈ sd → Renames (templates llamaNames) k k' →
      (cfg.tiedEmbeddings = true → k' ≠ fsHead) → ∃ v', (k', v') ∈ out ∧
        ((∃ H, RotaryKey cfg "model.layers." k H ∧ permuteRotary H (headDim cfg) v = some v') ∨
         ((∀ H, ¬ RotaryKey cfg "model.layers." k H) ∧ v' = v))) ∧
    (cfg.tiedEmbeddings = true → ∀ v, (hgEmbed, v) ∈ sd → (fsHead, v) ∈ out) ∧
    (∀ e ∈ out, (cfg.tiedEmbeddings = true ∧ e.1 = fsHead) ∨
      ∃ e' ∈ sd, Renames (templates llamaNames) e'.1 e.1) := by
  have ho : AllOurs hg sd := ho
  obtain ⟨⟨k0, v0⟩, hm, hk⟩ := List.mem_map.1 hE
  have hk' : k0 = hgEmbed := hk
  subst hk'
  have hu : Usual hg := usual_llama
  have hH : cfg.numAttnHeads ≠ 0 := by
    intro h0
    rw [convertLlama_raises hd hm (Or.inl h0)] at h
    cases h
  have hr : LayersReady (fun H => permuteRotary H (headDim cfg)) cfg "model.layers." cfg.numLayers sd := by
    by_cases hr : LayersReady (fun H => permuteRotary (α := α) H (headDim cfg)) cfg "model.layers."
      cfg.numLayers sd
    · exact hr
    · rw [convertLlama_raises hd hm (Or.inr hr)] at h
      cases h
  rw [convertLlama_hg hH hd ho hm hr] at h
  simp only [Option.some.injEq, Prod.mk.injEq] at h
  obtain ⟨h, -⟩ := h
  have hmd := moved_distinct (permute := fun H => permuteRotary (α := α) H (headDim cfg)) (cfg := cfg)
    (pre := "model.layers.") hu.good hd ho
  have hval : ∀ k v k', (k, v) ∈ sd → Renames (templates llamaNames) k k' → ∃ v',
      (k', v') ∈ moved hg (fun H => permuteRotary H (headDim cfg)) cfg "model.layers." sd ∧
        ((∃ H, RotaryKey cfg "model.layers." k H ∧ permuteRotary H (headDim cfg) v = some v') ∨
         ((∀ H, ¬ RotaryKey cfg "model.layers." k H) ∧ v' = v)) := by
    intro k v k' hkv hren
    rw [← rename_eq hu.good hren, moved_eq]
    refine ⟨newValue (fun H => permuteRotary H (headDim cfg)) cfg "model.layers." cfg.numLayers k v,
      List.mem_map.2 ⟨(k, v), hkv, rfl⟩, ?_⟩
    cases hh : headsOf cfg "model.layers." cfg.numLayers k with
    | none =>
      refine Or.inr ⟨rotaryKey_none.2 hh, ?_⟩
      simp only [newValue, hh]
    | some H =>
      obtain ⟨v', hv'⟩ := ready_entry hd hr hkv hh
      refine Or.inl ⟨H, rotaryKey_iff.2 hh, ?_⟩
      have hv2 : permuteRotary H (headDim cfg) v = some v' := hv'
      simp only [newValue, hh, hv2, Option.getD_some]
  have hback : ∀ e ∈ moved hg (fun H => permuteRotary (α := α) H (headDim cfg)) cfg "model.layers." sd,
      ∃ e' ∈ sd, Renames (templates llamaNames) e'.1 e.1 := by
    intro e he
    rw [moved_eq, List.mem_map] at he
    obtain ⟨e', he', rfl⟩ := he
    exact ⟨e', he', rename_spec hu.good e'.1⟩
  cases ht : cfg.tiedEmbeddings with
  | false =>
    rw [ht] at h
    simp only [Bool.false_eq_true, if_false] at h
    subst h
    refine ⟨hmd, fun k v k' hkv hren _ => hval k v k' hkv hren, by simp, ?_⟩
    intro e he
    exact Or.inr (hback e he)
  | true =>
    rw [ht] at h
    simp only [if_true] at h
    subst h
    by_cases hin : fsHead ∈
        (moved hg (fun H => permuteRotary (α := α) H (headDim cfg)) cfg "model.layers." sd).map (·.1)
    · rw [put_old hin]
      refine ⟨?_, ?_, ?_, ?_⟩
      · rw [Distinct, List.map_map]; exact hmd
      · intro k v k' hkv hren hne
        obtain ⟨v', hv', hcase⟩ := hval k v k' hkv hren
        refine ⟨v', List.mem_map.2 ⟨_, hv', ?_⟩, hcase⟩
        simp only [if_neg (hne rfl)]
      · intro _ v hv
        have hvv : v = v0 := by
          have h1 := get?_of_mem hd hv
          rw [get?_of_mem hd hm] at h1
          exact (Option.some.inj h1).symm
        subst hvv
        obtain ⟨e, he, hek⟩ := List.mem_map.1 hin
        refine List.mem_map.2 ⟨e, he, ?_⟩
        simp only [hek, if_true]
      · intro e he
        obtain ⟨e', he', rfl⟩ := List.mem_map.1 he
        exact Or.inr (hback e' he')
    · rw [put_new hin]
      refine ⟨?_, ?_, ?_, ?_⟩
      · rw [Distinct, List.map_append, List.nodup_append]
        refine ⟨hmd, by simp, ?_⟩
        intro a ha b hb hab
        simp only [List.map_cons, List.map_nil, List.mem_singleton] at hb
        subst hab
        exact hin (hb ▸ ha)
      · intro k v k' hkv hren _
        obtain ⟨v', hv', hcase⟩ := hval k v k' hkv hren
        exact ⟨v', List.mem_append_left _ hv', hcase⟩
      · intro _ v hv
        have hvv : v = v0 := by
          have h1 := get?_of_mem hd hv
          rw [get?_of_mem hd hm] at h1
          exact (Option.some.inj h1).symm
        subst hvv
        simp
      · intro e he
        rcases List.mem_append.1 he with he | he
        · exact Or.inr (hback e he)
        · simp only [List.mem_singleton] at he
          subst he
          exact Or.inl ⟨rfl, rfl⟩

theorem hg_swap_good : Good (swap hg) := usual_hg.good.swap

/-- The exporter in one equation. -/
theorem llamaToHg_eq {cfg : Config} (hH : cfg.numAttnHeads ≠ 0) {sd : Tensors α} (hd : Distinct sd)
    (ho : AllOurs (swap hg) sd)
    (hr : LayersReady (fun H => permuteRotaryBack H (headDim cfg)) cfg "decoder.layers." cfg.numLayers sd) :
    llamaToHg cfg sd = (untieEmbeddings cfg
      (moved (swap hg) (fun H => permuteRotaryBack H (headDim cfg)) cfg "decoder.layers." sd)).map fun out =>
      (out, newValues (fun H => permuteRotaryBack H (headDim cfg)) cfg "decoder.layers." cfg.numLayers sd) := by
  have hpl := (permuteLayers_spec (fun H => permuteRotaryBack (α := α) H (headDim cfg)) cfg
    "decoder.layers." sd hd cfg.numLayers).1 hr
  have hcv : convertStateDict
      (newValues (fun H => permuteRotaryBack H (headDim cfg)) cfg "decoder.layers." cfg.numLayers sd)
      (createReverseKeyMap llamaKeyMap) =
      some (moved (swap hg) (fun H => permuteRotaryBack H (headDim cfg)) cfg "decoder.layers." sd) := by
    rw [show llamaKeyMap = texts hg from C87_tables.1.1, usual_hg.good.reverse]
    exact convert_eq hg_swap_good (newValues_distinct hd) (newValues_ours ho)
  simp only [headDim] at hpl hcv ⊢
  unfold llamaToHg
  rw [if_neg hH]
  simp only [hpl, hcv, Option.bind_eq_bind, Option.bind_some]
  cases untieEmbeddings cfg (moved (swap hg)
    (fun H => permuteRotaryBack H (cfg.modelDim / cfg.numAttnHeads)) cfg "decoder.layers." sd) <;> rfl

theorem inverse_there (D : Nat) (hD : D % 2 = 0) (H : Nat) (w w' : List α)
    (h : permuteRotary H D w = some w') : permuteRotaryBack H D w' = some w :=
  ((C86_permute H D hD w).2.2.1 w' h).2.2

theorem inverse_back (D : Nat) (hD : D % 2 = 0) (H : Nat) (w w' : List α)
    (h : permuteRotaryBack H D w = some w') : permuteRotary H D w' = some w :=
  (C86_permute H D hD w).2.2.2 w' h

theorem del_last {V : Type} {sd : Dict V} {k : Key} {v : V} (h : k ∉ sd.map (·.1)) :
    Dict.del (sd ++ [(k, v)]) k = some sd := by
  rw [Dict.del, if_pos (has_iff.2 (by simp)), filter_last h]

/-- **From Hugging Face and back.** For an even dimension of the heads: if a Hugging Face LLaMA
dictionary can be imported, then exporting the result gives the dictionary back, entry by entry in the
same order. With tied embeddings the dictionary is taken to have no head of its own. -/
theorem C87_llama_there_and_back (cfg : Config) (hD : headDim cfg % 2 = 0) {sd : Tensors α}
    (hd : Distinct sd) (ho : AllOurs (templates llamaNames) sd) (hE : hgEmbed ∈ sd.map (·.1))
    (hT : cfg.tiedEmbeddings = true → hgHead ∉ sd.map (·.1)) {out caller : Tensors α}
    (h : convertLlama cfg sd = some (out, caller)) :
    ∃ caller', llamaToHg cfg out = some (sd, caller') := by
  have ho : AllOurs hg sd := ho
  obtain ⟨⟨k0, v0⟩, hm, hk⟩ := List.mem_map.1 hE
  have hk' : k0 = hgEmbed := hk
  subst hk'
  have hu : Usual hg := usual_llama
  have hH : cfg.numAttnHeads ≠ 0 := by
    intro h0
    rw [convertLlama_raises hd hm (Or.inl h0)] at h
    cases h
  have hr : LayersReady (fun H => permuteRotary H (headDim cfg)) cfg "model.layers." cfg.numLayers sd := by
    by_cases hr : LayersReady (fun H => permuteRotary (α := α) H (headDim cfg)) cfg "model.layers."
      cfg.numLayers sd
    · exact hr
    · rw [convertLlama_raises hd hm (Or.inr hr)] at h
      cases h
  rw [convertLlama_hg hH hd ho hm hr] at h
  simp only [Option.some.injEq, Prod.mk.injEq] at h
  obtain ⟨h, -⟩ := h
  have hmd := moved_distinct (permute := fun H => permuteRotary (α := α) H (headDim cfg)) (cfg := cfg)
    (pre := "model.layers.") hu.good hd ho
  have hmo := moved_ours (permute := fun H => permuteRotary (α := α) H (headDim cfg)) (cfg := cfg)
    (pre := "model.layers.") hu.good ho
  obtain ⟨hr', hv'⟩ := moved_back hu.good hg_layers
    (permute' := fun H => permuteRotaryBack H (headDim cfg)) (inverse_there (headDim cfg) hD) hd ho hr
  have hcb : (sd.map fun e => (rename hg e.1, e.2)).map (fun e => (rename (swap hg) e.1, e.2)) = sd := by
    rw [List.map_map]
    conv => rhs; rw [← List.map_id sd]
    apply List.map_congr_left
    intro e he
    simp only [Function.comp_apply]
    rw [(rename_back hu.good (ho e he)).1]
    rfl
  cases ht : cfg.tiedEmbeddings with
  | false =>
    rw [ht] at h
    simp only [Bool.false_eq_true, if_false] at h
    subst h
    rw [llamaToHg_eq hH hmd hmo hr']
    unfold moved at hv' ⊢
    simp only [untieEmbeddings, ht, Bool.false_eq_true, if_false, Option.map_some]
    rw [hv', hcb]
    exact ⟨_, rfl⟩
  | true =>
    rw [ht] at h
    simp only [if_true] at h
    have hin : fsHead ∉
        (moved hg (fun H => permuteRotary (α := α) H (headDim cfg)) cfg "model.layers." sd).map (·.1) := by
      rw [keys_moved, mem_head_iff hu.good hu.head hu.oursHead ho]
      exact hT ht
    rw [put_new hin] at h
    subst h
    rw [llamaToHg_eq hH]
    · simp only [untieEmbeddings, ht, if_true]
      have hnew : moved (swap hg) (fun H => permuteRotaryBack H (headDim cfg)) cfg "decoder.layers."
          (moved hg (fun H => permuteRotary H (headDim cfg)) cfg "model.layers." sd ++ [(fsHead, v0)]) =
          sd ++ [(hgHead, v0)] := by
        unfold moved newValues at hv' ⊢
        rw [List.map_append, hv', List.map_append, hcb]
        simp only [List.map_cons, List.map_nil, newValue, fsHead_no_layer]
        rw [rename_eq hg_swap_good (renames_back hu.oursHead hu.head).1]
      rw [hnew]
      have : Dict.del (sd ++ [(hgHead, v0)]) "lm_head.weight".toList = some sd := del_last (hT ht)
      rw [this]
      exact ⟨_, rfl⟩
    · rw [Distinct, List.map_append, List.nodup_append]
      refine ⟨hmd, by simp, ?_⟩
      intro a ha b hb hab
      simp only [List.map_cons, List.map_nil, List.mem_singleton] at hb
      subst hab
      exact hin (hb ▸ ha)
    · intro e he
      rcases List.mem_append.1 he with he | he
      · exact hmo e he
      · simp only [List.mem_singleton] at he
        subst he
        exact (renames_back hu.oursHead hu.head).2
    · intro idx hi
      obtain ⟨q, k, q', k', h1, h2, h3, h4⟩ := hr' idx hi
      exact ⟨q, k, q', k', get?_append_left h1, get?_append_left h2, h3, h4⟩

theorem filter_ours {km : List (List Tok × List Tok)} {sd : Tensors α} (ho : AllOurs km sd)
    (p : Key × List α → Bool) : AllOurs km (sd.filter p) :=
  fun e he => ho e (List.mem_filter.1 he).1

theorem filter_distinct {sd : Tensors α} (hd : Distinct sd) (p : Key × List α → Bool) :
    Distinct (sd.filter p) :=
  List.Nodup.sublist (List.filter_sublist.map _) hd

theorem filter_moved {km : List (List Tok × List Tok)} (h : Good km) {a b : Key} (hr : Renames km a b)
    (ha : Ours km a) {permute : Nat → List α → Option (List α)} {cfg : Config} {pre : String}
    {sd : Tensors α} (ho : AllOurs km sd) :
    (moved km permute cfg pre sd).filter (fun e => !(e.1 == b)) =
      moved km permute cfg pre (sd.filter fun e => !(e.1 == a)) := by
  rw [moved_eq, moved_eq, List.filter_map]
  congr 1
  apply List.filter_congr
  intro e he
  simp only [Function.comp_apply]
  congr 1
  rw [Bool.eq_iff_iff, beq_iff_eq, beq_iff_eq]
  constructor
  · intro hb
    rw [← rename_eq h hr] at hb
    exact rename_inj h (ho e he) ha hb
  · intro hb
    rw [hb]
    exact rename_eq h hr

theorem mem_filter_ne {sd : Tensors α} {k k' : Key} {v : List α} (h : (k, v) ∈ sd) (hne : k ≠ k') :
    (k, v) ∈ sd.filter fun e => !(e.1 == k') :=
  List.mem_filter.2 ⟨h, by simpa using hne⟩

theorem fsEmbed_ne : fsEmbed ≠ fsHead := by unfold fsEmbed fsHead; decide_texts

theorem not_mem_filter {sd : Tensors α} {k : Key} :
    k ∉ (sd.filter fun e => !(e.1 == k)).map (·.1) := by
  intro h
  obtain ⟨e, he, hk⟩ := List.mem_map.1 h
  have := (List.mem_filter.1 he).2
  simp [hk] at this

/-- A query or key weight is no head. -/
theorem layer_ne_head (idx : Nat) (post : String) : layerKey "decoder.layers." idx post ≠ fsHead := by
  intro h
  have hp : ¬ "decoder.layers.".toList <+: fsHead := by unfold fsHead; decide_texts
  exact hp (h ▸ List.prefix_append _ _)

/-- **To Hugging Face and back.** For an even dimension of the heads: if a fairseq2 LLaMA dictionary with
an embedding table is exported, then importing the result gives the same dictionary. With tied embeddings
the head has to be the embedding table; its entry moves to the end. -/
theorem C87_llama_back_and_there (cfg : Config) (hD : headDim cfg % 2 = 0) {sd : Tensors α}
    (hd : Distinct sd) (ho : AllOurs ((templates llamaNames).map fun e => (e.2, e.1)) sd) {v : List α}
    (hE : (fsEmbed, v) ∈ sd) (hT : cfg.tiedEmbeddings = true → (fsHead, v) ∈ sd)
    {out caller : Tensors α} (h : llamaToHg cfg sd = some (out, caller)) :
    ∃ caller', convertLlama cfg out = some
      (if cfg.tiedEmbeddings then sd.filter (fun e => e.1 ≠ fsHead) ++ [(fsHead, v)] else sd,
        caller') := by
  have ho : AllOurs (swap hg) sd := ho
  have hu : Usual hg := usual_llama
  have hs : Good (swap hg) := hg_swap_good
  have hhead := renames_back hu.oursHead hu.head
  have hembed := renames_back hu.oursEmbed hu.embed
  have hH : cfg.numAttnHeads ≠ 0 := by
    intro h0
    simp [llamaToHg, h0] at h
  have hr : LayersReady (fun H => permuteRotaryBack H (headDim cfg)) cfg "decoder.layers."
      cfg.numLayers sd := by
    by_cases hr : LayersReady (fun H => permuteRotaryBack (α := α) H (headDim cfg)) cfg "decoder.layers."
      cfg.numLayers sd
    · exact hr
    · have hpl := (permuteLayers_spec (fun H => permuteRotaryBack (α := α) H (headDim cfg)) cfg
        "decoder.layers." sd hd cfg.numLayers).2 hr
      simp only [headDim] at hpl
      simp [llamaToHg, hH, hpl] at h
  rw [llamaToHg_eq hH hd ho hr] at h
  -- the dictionary without the tied head goes through both conversions unharmed
  have main : ∀ sd0 : Tensors α, Distinct sd0 → AllOurs (swap hg) sd0 → (fsEmbed, v) ∈ sd0 →
      LayersReady (fun H => permuteRotaryBack H (headDim cfg)) cfg "decoder.layers." cfg.numLayers sd0 →
      convertLlama cfg (moved (swap hg) (fun H => permuteRotaryBack H (headDim cfg)) cfg
        "decoder.layers." sd0) = some
        (if cfg.tiedEmbeddings then Dict.put sd0 fsHead v else sd0,
         newValues (fun H => permuteRotary H (headDim cfg)) cfg "model.layers." cfg.numLayers
          (moved (swap hg) (fun H => permuteRotaryBack H (headDim cfg)) cfg "decoder.layers." sd0)) := by
    intro sd0 hd0 ho0 hE0 hr0
    obtain ⟨hr', hv'⟩ := moved_back hs hg_layers.swap
      (permute' := fun H => permuteRotary H (headDim cfg)) (inverse_back (headDim cfg) hD) hd0 ho0 hr0
    have hmo : AllOurs hg (moved (swap hg) (fun H => permuteRotaryBack (α := α) H (headDim cfg)) cfg
        "decoder.layers." sd0) := by
      have := moved_ours (permute := fun H => permuteRotaryBack (α := α) H (headDim cfg)) (cfg := cfg)
        (pre := "decoder.layers.") hs ho0
      rwa [swap_swap] at this
    have hE1 : (hgEmbed, v) ∈ moved (swap hg) (fun H => permuteRotaryBack (α := α) H (headDim cfg)) cfg
        "decoder.layers." sd0 := by
      rw [moved_eq, List.mem_map]
      refine ⟨_, hE0, ?_⟩
      simp only [newValue, fsEmbed_no_layer]
      rw [rename_eq hs hembed.1]
    rw [convertLlama_hg hH (moved_distinct hs hd0 ho0) hmo hE1 hr']
    have hback : moved hg (fun H => permuteRotary H (headDim cfg)) cfg "model.layers."
        (moved (swap hg) (fun H => permuteRotaryBack H (headDim cfg)) cfg "decoder.layers." sd0) = sd0 := by
      rw [moved, hv', List.map_map]
      conv => rhs; rw [← List.map_id sd0]
      apply List.map_congr_left
      intro e he
      have := (rename_back hs (ho0 e he)).1
      rw [swap_swap] at this
      simp only [Function.comp_apply, this]
      rfl
    rw [hback]
  cases ht : cfg.tiedEmbeddings with
  | false =>
    simp only [untieEmbeddings, ht, Bool.false_eq_true, if_false, Option.map_some, Option.some.injEq,
      Prod.mk.injEq] at h
    obtain ⟨rfl, -⟩ := h
    rw [main sd hd ho hE hr]
    simp only [ht, Bool.false_eq_true, if_false]
    exact ⟨_, rfl⟩
  | true =>
    simp only [untieEmbeddings, ht, if_true] at h
    rw [Dict.del] at h
    have hhas : Dict.has (moved (swap hg) (fun H => permuteRotaryBack (α := α) H (headDim cfg)) cfg
        "decoder.layers." sd) "lm_head.weight".toList = true := by
      rw [has_iff, keys_moved]
      exact (mem_head_iff hs hhead.1 hhead.2 ho).2 (List.mem_map.2 ⟨_, hT ht, rfl⟩)
    rw [if_pos hhas] at h
    simp only [Option.map_some, Option.some.injEq, Prod.mk.injEq] at h
    obtain ⟨h, -⟩ := h
    have hf := filter_moved hs hhead.1 hhead.2
      (permute := fun H => permuteRotaryBack (α := α) H (headDim cfg)) (cfg := cfg)
      (pre := "decoder.layers.") ho
    have hf' := hf.symm.trans h
    rw [← hf', main _ (filter_distinct hd _) (filter_ours ho _) (mem_filter_ne hE fsEmbed_ne)]
    · simp only [ht, if_true]
      rw [put_new not_mem_filter]
      have : (sd.filter fun e => !(e.1 == fsHead)) = sd.filter fun e => decide (e.1 ≠ fsHead) := by
        apply List.filter_congr
        intro e _
        by_cases hk : e.1 = fsHead <;> simp [hk]
      rw [← this]
      exact ⟨_, rfl⟩
    · intro idx hi
      obtain ⟨q, k, q', k', h1, h2, h3, h4⟩ := hr idx hi
      exact ⟨q, k, q', k', get?_of_mem (filter_distinct hd _)
          (mem_filter_ne (get?_mem h1) (layer_ne_head idx _)),
        get?_of_mem (filter_distinct hd _) (mem_filter_ne (get?_mem h2) (layer_ne_head idx _)), h3, h4⟩

/-! ## Qwen, OLMo, and the reference format of LLaMA -/

/-- Permuting nothing. -/
def noLayers (cfg : Config) : Config := { cfg with numLayers := 0 }

theorem moved_none {km : List (List Tok × List Tok)} (cfg : Config) (pre : String) (sd : Tensors α) :
    moved km (fun _ w => some w) (noLayers cfg) pre sd = sd.map fun e => (rename km e.1, e.2) := by
  rw [moved_eq]
  apply List.map_congr_left
  intro e _
  simp [newValue, headsOf, noLayers]

/-- **Qwen and OLMo.** A Hugging Face dictionary is imported, with tied embeddings one without a head.
The result has the same values under the fairseq2 names, plus the tied head, and exporting it gives the
dictionary back. -/
theorem C87_plain_there_and_back {m : List (Key × Key)} {names : List (String × String)}
    (hm : (m, names) ∈ [(qwenKeyMap, qwenNames), (olmoKeyMap, olmoNames)]) (cfg : Config)
    {sd : Tensors α} (hd : Distinct sd) (ho : AllOurs (templates names) sd)
    (hE : hgEmbed ∈ sd.map (·.1)) (hT : cfg.tiedEmbeddings = true → hgHead ∉ sd.map (·.1)) :
    ∃ out, convertPlain m cfg sd = some out ∧ Distinct out ∧
      (∀ k v k', (k, v) ∈ sd → Renames (templates names) k k' → (k', v) ∈ out) ∧
      (cfg.tiedEmbeddings = true → ∀ v, (hgEmbed, v) ∈ sd → (fsHead, v) ∈ out) ∧
      out.length = sd.length + (if cfg.tiedEmbeddings then 1 else 0) ∧
      plainToHg m cfg out = some sd := by
  have key : m = texts (templates names) ∧ Usual (templates names) := by
    obtain ⟨-, -, h3, h4, -⟩ := C87_tables
    simp only [List.mem_cons, List.not_mem_nil, or_false, Prod.mk.injEq] at hm
    rcases hm with ⟨rfl, rfl⟩ | ⟨rfl, rfl⟩
    · exact ⟨h3.1, usual_qwen⟩
    · exact ⟨h4.1, usual_olmo⟩
  obtain ⟨rfl, hu⟩ := key
  generalize templates names = km at *
  obtain ⟨⟨k0, v0⟩, hm0, hk⟩ := List.mem_map.1 hE
  have hk' : k0 = hgEmbed := hk
  subst hk'
  have hhas : Dict.has sd "model.embed_tokens.weight".toList = true :=
    has_iff.2 (List.mem_map.2 ⟨_, hm0, rfl⟩)
  have hval : ∀ k v k', (k, v) ∈ sd → Renames km k k' →
      (k', v) ∈ sd.map fun e => (rename km e.1, e.2) := by
    intro k v k' hkv hren
    exact List.mem_map.2 ⟨_, hkv, by rw [rename_eq hu.good hren]⟩
  have hdm : Distinct (sd.map fun e => (rename km e.1, e.2)) := by
    rw [Distinct, List.map_map]; exact rename_nodup hu.good hd ho
  have htie := tie_some (cfg := cfg) (get?_of_mem hdm (hval _ _ _ hm0 hu.embed))
  have hconv : convertPlain (texts km) cfg sd = some (if cfg.tiedEmbeddings then
      Dict.put (sd.map fun e => (rename km e.1, e.2)) fsHead v0
      else sd.map fun e => (rename km e.1, e.2)) := by
    unfold convertPlain
    rw [if_pos hhas, convert_eq hu.good hd ho]
    exact htie
  have hcb := convert_back hu.good hd ho
  refine ⟨_, hconv, ?_⟩
  cases ht : cfg.tiedEmbeddings with
  | false =>
    simp only [Bool.false_eq_true, if_false]
    refine ⟨hdm, hval, by simp, by simp, ?_⟩
    unfold plainToHg
    rw [hu.good.reverse, hcb]
    simp [untieEmbeddings, ht]
  | true =>
    simp only [if_true]
    have hin : fsHead ∉ (sd.map fun e => (rename km e.1, e.2)).map (·.1) := by
      rw [List.map_map]
      exact fun hmem => hT ht ((mem_head_iff hu.good hu.head hu.oursHead ho).1 hmem)
    have hdl : Distinct ((sd.map fun e => (rename km e.1, e.2)) ++ [(fsHead, v0)]) := by
      rw [Distinct, List.map_append, List.nodup_append]
      refine ⟨hdm, by simp, ?_⟩
      intro a ha b hb hab
      simp only [List.map_cons, List.map_nil, List.mem_singleton] at hb
      subst hab
      exact hin (hb ▸ ha)
    rw [put_new hin]
    refine ⟨hdl, ?_, ?_, by simp, ?_⟩
    · intro k v k' hkv hren
      exact List.mem_append_left _ (hval k v k' hkv hren)
    · intro _ v hv
      have h1 := get?_of_mem hd hv
      rw [get?_of_mem hd hm0] at h1
      cases h1
      simp
    · have hback := renames_back hu.oursHead hu.head
      have hol : AllOurs (swap km) ((sd.map fun e => (rename km e.1, e.2)) ++ [(fsHead, v0)]) := by
        intro e he
        rcases List.mem_append.1 he with he | he
        · obtain ⟨e', he', rfl⟩ := List.mem_map.1 he
          exact (rename_back hu.good (ho e' he')).2
        · simp only [List.mem_singleton] at he
          subst he
          exact hback.2
      unfold plainToHg
      rw [hu.good.reverse, convert_eq hu.good.swap hdl hol, List.map_append]
      have hcb' : (sd.map fun e => (rename km e.1, e.2)).map (fun e => (rename (swap km) e.1, e.2)) = sd := by
        rw [convert_eq hu.good.swap hdm (fun e he => hol e (List.mem_append_left _ he))] at hcb
        exact Option.some.inj hcb
      rw [hcb']
      simp only [List.map_cons, List.map_nil, rename_eq hu.good.swap hback.1, Option.bind_eq_bind,
        Option.bind_some, untieEmbeddings, ht, if_true]
      exact del_last (hT ht)

/-- **To the reference format and back.** If the exported dictionary is one of the reference format (it
has the embedding table of that format, not the one of Hugging Face) and none of its names contains
`rope.freqs`, then importing it without tying gives the dictionary back. -/
theorem C87_ref_roundtrip (cfg : Config) (hT : cfg.tiedEmbeddings = false) {sd : Tensors α}
    (hd : Distinct sd) (ho : AllOurs ((templates refNames).map fun e => (e.2, e.1)) sd) :
    ∃ out, llamaToRef sd = some out ∧ Distinct out ∧ out.map (·.2) = sd.map (·.2) ∧
      ("tok_embeddings.weight".toList ∈ out.map (·.1) →
        "model.embed_tokens.weight".toList ∉ out.map (·.1) →
        (∀ e ∈ out, contains "rope.freqs".toList e.1 = false) →
        convertLlama cfg out = some (sd, out)) := by
  have hg : Good (templates refNames) := templates_good.2.1
  have htexts : toRefKeyMap = texts (swap (templates refNames)) := by
    rw [C87_tables.2.2.2.2, C87_tables.2.1.1, hg.reverse]
  have ho : AllOurs (swap (templates refNames)) sd := ho
  have hcv := convert_eq hg.swap hd ho
  have hcb := convert_back hg.swap hd ho
  rw [swap_swap] at hcb
  refine ⟨_, by rw [llamaToRef, htexts]; exact hcv, ?_, ?_, ?_⟩
  · rw [Distinct, List.map_map]; exact rename_nodup hg.swap hd ho
  · rw [List.map_map]; rfl
  · intro h1 h2 h3
    unfold convertLlama
    have hfil : List.filter (fun e => !contains "rope.freqs".toList e.1)
        (sd.map fun e => (rename (swap (templates refNames)) e.1, e.2)) =
        sd.map fun e => (rename (swap (templates refNames)) e.1, e.2) := by
      rw [List.filter_eq_self]
      intro e he
      rw [h3 e he]
      rfl
    rw [if_neg (by rw [has_iff]; exact h2), if_pos (has_iff.2 h1)]
    simp only [hfil]
    rw [C87_tables.2.1.1, hcb]
    simp [tieEmbeddings, hT]

/-! ## Where the converters fall short -/

/-- A dictionary of one layer with heads of dimension four; the rows are numbered. -/
def small (embed q k head : String) : Tensors Nat :=
  [(embed.toList, [7]), (q.toList, [0, 1, 2, 3]), (k.toList, [4, 5, 6, 7]), (head.toList, [8])]

def smallHg : Tensors Nat := small "model.embed_tokens.weight" "model.layers.0.self_attn.q_proj.weight"
  "model.layers.0.self_attn.k_proj.weight" "lm_head.weight"

def smallFs : Tensors Nat := small "decoder_frontend.embed.weight"
  "decoder.layers.0.self_attn.q_proj.weight" "decoder.layers.0.self_attn.k_proj.weight"
  "final_proj.weight"

def smallConfig (tied : Bool) : Config where
  modelDim := 4
  numLayers := 1
  numAttnHeads := 1
  numKeyValueHeads := 1
  tiedEmbeddings := tied

/-- **Exporting writes into the caller's dictionary.** The query and key weights are replaced in the
dictionary passed in, so exporting it once more gives other weights than the first time. -/
theorem C87_export_twice_negation : ∃ (cfg : Config) (sd out caller out' caller' : Tensors Nat),
    Distinct sd ∧ llamaToHg cfg sd = some (out, caller) ∧ llamaToHg cfg caller = some (out', caller') ∧
    out ≠ out' :=
  ⟨smallConfig false, smallFs,
    [("model.embed_tokens.weight".toList, [7]),
      ("model.layers.0.self_attn.q_proj.weight".toList, [0, 2, 1, 3]),
      ("model.layers.0.self_attn.k_proj.weight".toList, [4, 6, 5, 7]),
      ("lm_head.weight".toList, [8])],
    [("decoder_frontend.embed.weight".toList, [7]),
      ("decoder.layers.0.self_attn.q_proj.weight".toList, [0, 2, 1, 3]),
      ("decoder.layers.0.self_attn.k_proj.weight".toList, [4, 6, 5, 7]),
      ("final_proj.weight".toList, [8])],
    smallHg, smallFs, by
      unfold Distinct smallFs small
      decide_texts, by
      unfold smallFs small llamaToHg permuteLayers layerKey untieEmbeddings llamaKeyMap keyMap
      simp only [List.map_cons, List.map_nil]
      decide_texts, by
      unfold smallHg smallFs small llamaToHg permuteLayers layerKey untieEmbeddings llamaKeyMap keyMap
      simp only [List.map_cons, List.map_nil]
      decide_texts, by
      unfold smallHg small
      decide_texts⟩

/-- **Importing writes into the caller's dictionary** as well: the dictionary is another one
afterwards. -/
theorem C87_import_mutates_negation : ∃ (cfg : Config) (sd out caller : Tensors Nat),
    Distinct sd ∧ convertLlama cfg sd = some (out, caller) ∧ caller ≠ sd :=
  ⟨smallConfig false, smallHg,
    [("decoder_frontend.embed.weight".toList, [7]),
      ("decoder.layers.0.self_attn.q_proj.weight".toList, [0, 2, 1, 3]),
      ("decoder.layers.0.self_attn.k_proj.weight".toList, [4, 6, 5, 7]),
      ("final_proj.weight".toList, [8])],
    [("model.embed_tokens.weight".toList, [7]),
      ("model.layers.0.self_attn.q_proj.weight".toList, [0, 2, 1, 3]),
      ("model.layers.0.self_attn.k_proj.weight".toList, [4, 6, 5, 7]),
      ("lm_head.weight".toList, [8])], by
      unfold Distinct smallHg small
      decide_texts, by
      unfold smallHg small convertLlama permuteLayers layerKey tieEmbeddings llamaKeyMap keyMap
      simp only [List.map_cons, List.map_nil]
      decide_texts, by
      unfold smallHg small
      decide_texts⟩

private theorem config_main (c : FfnConfig) (h1 : c.ffnInnerDim = 4 * c.modelDim)
    (h2 : c.ffnInnerDimScale = 2 / 3) (h3 : c.ffnInnerDimMultiplier = 1) :
    c.intermediateSize = c.innerDim := by
  have hf : ∀ n : Nat, ((n : Rat)).floor.toNat = n := by
    intro n
    have : ((n : Rat)).floor = (n : Int) := by
      rw [show ((n : Rat)) = (((n : Int) : Rat)) by push_cast; rfl, Rat.floor_intCast]
    rw [this]
    rfl
  unfold FfnConfig.intermediateSize FfnConfig.innerDim
  have hs : (2 / 3 : Rat) ≠ 1 := by norm_num
  simp only [h1, h2, h3, mul_one, one_mul, hf, ne_eq, hs, not_false_eq_true, if_true]
  have e : ((4 * c.modelDim : Nat) : Rat) * (2 / 3) = 8 * (c.modelDim : Rat) / 3 := by
    push_cast; ring
  rw [e]
  split
  · rfl
  · rename_i h
    have h' : c.ffnInnerDimMultipleOf = 1 := by simpa using h
    rw [h', roundUp]
    simp

/-- **The exported size of the feed-forward network** is that of the model if the inner dimension is four
times the model dimension, the scale is 2/3 and the multiplier is one: the next multiple of
`ffn_inner_dim_multiple_of` from 8/3 of the model dimension, rounded down. Missing: other inner
dimensions, scales and multipliers, for which it need not be. -/
theorem C87_config_partial (c : FfnConfig) (h1 : c.ffnInnerDim = 4 * c.modelDim)
    (h2 : c.ffnInnerDimScale = 2 / 3) (h3 : c.ffnInnerDimMultiplier = 1) :
    c.intermediateSize = c.innerDim ∧
    (0 < c.ffnInnerDimMultipleOf → c.ffnInnerDimMultipleOf ∣ c.innerDim ∧
      8 * c.modelDim / 3 ≤ c.innerDim ∧ c.innerDim < 8 * c.modelDim / 3 + c.ffnInnerDimMultipleOf) := by
  have hmain : c.intermediateSize = c.innerDim := config_main c h1 h2 h3
  refine ⟨hmain, fun hpos => ?_⟩
  rw [← hmain]
  have hfl : (8 * (c.modelDim : Rat) / 3).floor.toNat = 8 * c.modelDim / 3 := by
    have : (8 * (c.modelDim : Rat) / 3).floor = ((8 * c.modelDim / 3 : Nat) : Int) := by
      rw [show (8 * (c.modelDim : Rat) / 3) = ((8 * c.modelDim : Nat) : Rat) / ((3 : Nat) : Rat) by push_cast; ring]
      exact Rat.floor_natCast_div_natCast _ _
    rw [this]
    rfl
  have hnat : ∀ n : Nat, (1 * (n : Rat)).floor.toNat = n := by
    intro n
    have : (1 * (n : Rat)).floor = (n : Int) := by
      rw [one_mul, show ((n : Rat)) = (((n : Int) : Rat)) by push_cast; rfl, Rat.floor_intCast]
    rw [this]
    rfl
  unfold FfnConfig.intermediateSize
  rw [h3, hfl, hnat]
  unfold roundUp
  refine ⟨Nat.dvd_mul_right _ _, ?_, ?_⟩
  · have h4 := Nat.div_add_mod (8 * c.modelDim / 3 + c.ffnInnerDimMultipleOf - 1) c.ffnInnerDimMultipleOf
    have h5 := Nat.mod_lt (8 * c.modelDim / 3 + c.ffnInnerDimMultipleOf - 1) hpos
    omega
  · have h4 := Nat.mul_div_le (8 * c.modelDim / 3 + c.ffnInnerDimMultipleOf - 1) c.ffnInnerDimMultipleOf
    omega

/-- **Otherwise the exported configuration can describe another model:** the exporter does not look at the
inner dimension and its scale, and it rounds in another order. -/
theorem C87_config_negation :
    (∃ c : FfnConfig, c.ffnInnerDim ≠ 4 * c.modelDim ∧ c.ffnInnerDimScale = 2 / 3 ∧
      c.ffnInnerDimMultiplier = 1 ∧ c.intermediateSize ≠ c.innerDim) ∧
    (∃ c : FfnConfig, c.ffnInnerDim = 4 * c.modelDim ∧ c.ffnInnerDimScale ≠ 2 / 3 ∧
      c.ffnInnerDimMultiplier = 1 ∧ c.intermediateSize ≠ c.innerDim) ∧
    (∃ c : FfnConfig, c.ffnInnerDim = 4 * c.modelDim ∧ c.ffnInnerDimScale = 2 / 3 ∧
      c.ffnInnerDimMultiplier ≠ 1 ∧ c.intermediateSize ≠ c.innerDim) :=
  ⟨⟨⟨2048, 4096, 2 / 3, 1, 256⟩, by decide, rfl, rfl, by decide +kernel⟩,
   ⟨⟨2048, 8192, 1, 1, 256⟩, rfl, by decide +kernel, rfl, by decide +kernel⟩,
   ⟨⟨2048, 8192, 2 / 3, 3 / 2, 1⟩, rfl, rfl, by decide +kernel, by decide +kernel⟩⟩

/-! ## The hypotheses can be met -/

theorem ours_of_changed {km : List (List Tok × List Tok)} (h : Good km) {k k' : Key}
    (hc : getConvertedKey (texts km) k = some k') (hne : k ≠ k') : Ours km k :=
  ours_of_fits ((converted_iff h k k').1 hc) hne

theorem smallHg_ours : AllOurs hg smallHg := by
  have hl := hg_layers.oursQ 0
  have hk := hg_layers.oursK 0
  have hu := usual_hg
  intro e he
  unfold smallHg small at he
  simp only [List.mem_cons, List.not_mem_nil, or_false] at he
  rcases he with rfl | rfl | rfl | rfl
  · exact hu.oursEmbed
  · rw [← layerKey_eq] at hl; exact hl
  · rw [← layerKey_eq] at hk; exact hk
  · exact hu.oursHead

theorem smallFs_ours : AllOurs (swap hg) smallFs := by
  have hl := hg_layers.swap.oursQ 0
  have hk := hg_layers.swap.oursK 0
  have hu := usual_hg
  intro e he
  unfold smallFs small at he
  simp only [List.mem_cons, List.not_mem_nil, or_false] at he
  rcases he with rfl | rfl | rfl | rfl
  · exact (renames_back hu.oursEmbed hu.embed).2
  · rw [← layerKey_eq] at hl; exact hl
  · rw [← layerKey_eq] at hk; exact hk
  · exact (renames_back hu.oursHead hu.head).2

example : Distinct smallHg ∧ AllOurs (templates llamaNames) smallHg ∧ hgEmbed ∈ smallHg.map (·.1) ∧
    Distinct (smallHg.take 3) ∧ AllOurs (templates llamaNames) (smallHg.take 3) ∧
    hgHead ∉ (smallHg.take 3).map (·.1) ∧ headDim (smallConfig true) % 2 = 0 ∧
    (convertLlama (smallConfig false) smallHg).isSome = true ∧
    (convertLlama (smallConfig true) (smallHg.take 3)).isSome = true ∧
    Complete (smallConfig true) "model.layers." smallHg := by
  have hd : Distinct smallHg := by unfold Distinct smallHg small; decide_texts
  have hd3 : Distinct (smallHg.take 3) := by unfold Distinct smallHg small; decide_texts
  have h1 : (convertLlama (smallConfig false) smallHg).isSome = true := by
    unfold smallHg small convertLlama permuteLayers layerKey tieEmbeddings llamaKeyMap keyMap
    simp only [List.map_cons, List.map_nil]
    decide_texts
  have h2 : (convertLlama (smallConfig true) (smallHg.take 3)).isSome = true := by
    unfold smallHg small convertLlama permuteLayers layerKey tieEmbeddings llamaKeyMap keyMap
    simp only [List.map_cons, List.map_nil]
    decide_texts
  have hmem : hgEmbed ∈ smallHg.map (·.1) := by
    unfold hgEmbed smallHg small; exact List.mem_cons_self
  refine ⟨hd, smallHg_ours, hmem, hd3,
    fun e he => smallHg_ours e (List.mem_of_mem_take he), by
      unfold hgHead smallHg small; decide_texts, by decide, h1, h2, ?_⟩
  have hr := C87_llama_raises (smallConfig false) (by decide) hd smallHg_ours hmem
  have hc : Complete (smallConfig false) "model.layers." smallHg := by
    apply Classical.byContradiction
    intro hn
    rw [hr.2 (Or.inr hn)] at h1
    cases h1
  exact hc

example : Distinct smallFs ∧ AllOurs ((templates llamaNames).map fun e => (e.2, e.1)) smallFs ∧
    (fsEmbed, [7]) ∈ smallFs ∧ (llamaToHg (smallConfig true) smallFs).isSome = true ∧
    (llamaToHg (smallConfig false) smallFs).isSome = true :=
  ⟨by unfold Distinct smallFs small; decide_texts, smallFs_ours,
    by unfold fsEmbed smallFs small; exact List.mem_cons_self, by
      unfold smallFs small llamaToHg permuteLayers layerKey untieEmbeddings llamaKeyMap keyMap
      simp only [List.map_cons, List.map_nil]
      decide_texts, by
      unfold smallFs small llamaToHg permuteLayers layerKey untieEmbeddings llamaKeyMap keyMap
      simp only [List.map_cons, List.map_nil]
      decide_texts⟩

/-- The dictionary of Qwen and OLMo. -/
def smallPlain : Tensors Nat := [(hgEmbed, [7]), ("model.norm.weight".toList, [1])]

example : Distinct smallPlain ∧ AllOurs (templates qwenNames) smallPlain ∧
    AllOurs (templates olmoNames) smallPlain ∧ hgEmbed ∈ smallPlain.map (·.1) ∧
    hgHead ∉ smallPlain.map (·.1) := by
  have key : ∀ names, Usual (templates names) → ("model.norm.", "decoder.layer_norm.") ∈ names →
      AllOurs (templates names) smallPlain := by
    intro names hu hn e he
    unfold smallPlain at he
    simp only [List.mem_cons, List.not_mem_nil, or_false] at he
    rcases he with rfl | rfl
    · exact hu.oursEmbed
    · refine Or.inl ⟨_, List.mem_map.2 ⟨_, hn, rfl⟩, ['0'], "weight".toList, ⟨by simp, by decide⟩, ?_⟩
      unfold template
      decide_texts
  refine ⟨?_, key _ usual_qwen (by simp [qwenNames]), key _ usual_olmo (by simp [olmoNames]),
    by simp [smallPlain], ?_⟩
  · unfold Distinct smallPlain hgEmbed; decide_texts
  · unfold smallPlain hgEmbed hgHead; decide_texts

/-- The dictionary for the reference format. -/
def smallRef : Tensors Nat := [(fsEmbed, [7]), ("decoder.layer_norm.weight".toList, [1])]

example : Distinct smallRef ∧ AllOurs ((templates refNames).map fun e => (e.2, e.1)) smallRef ∧
    llamaToRef smallRef = some [("tok_embeddings.weight".toList, [7]), ("norm.weight".toList, [1])] ∧
    ∀ e ∈ [("tok_embeddings.weight".toList, [7]), ("norm.weight".toList, [1])],
      contains "rope.freqs".toList e.1 = false := by
  refine ⟨by unfold Distinct smallRef fsEmbed; decide_texts, ?_, by
    unfold smallRef fsEmbed llamaToRef toRefKeyMap keyMap
    simp only [List.map_cons, List.map_nil]
    decide_texts, by decide_texts⟩
  have key : ∀ a b key, (a, b) ∈ refNames → key = fill b ['0'] ++ "weight".toList →
      Ours (swap (templates refNames)) key := by
    intro a b key hn hk
    refine Or.inl ⟨(template b, template a), mem_swap.2 (List.mem_map.2 ⟨_, hn, rfl⟩), ['0'],
      "weight".toList, ⟨by simp, by decide⟩, ?_⟩
    rw [written_fill]; exact hk
  intro e he
  unfold smallRef at he
  simp only [List.mem_cons, List.not_mem_nil, or_false] at he
  rcases he with rfl | rfl
  · exact key "tok_embeddings." "decoder_frontend.embed." _ (by simp [refNames])
      (by unfold fsEmbed fill; decide_texts)
  · exact key "norm." "decoder.layer_norm." _ (by simp [refNames]) (by unfold fill; decide_texts)

end Fs2.Props
