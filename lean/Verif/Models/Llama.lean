import Verif.Models.KeyMap
import Verif.Nn.Rotary

/-!
# Converting checkpoints of language models

Models the state dictionary converters of `src/fairseq2/models/{llama,qwen,olmo}/interop.py`. A tensor is
the list of its rows. Some of the functions write into the dictionary of their caller; the model returns
what is in there afterwards besides the result. `none` is an exception.
-/

namespace Fs2.Interop

open Fs2.Nn (permuteRotary permuteRotaryBack)

/-- A key map given by texts. -/
def keyMap (m : List (String × String)) : List (Key × Key) :=
  m.map fun e => (e.1.toList, e.2.toList)

/-- `key_map` of `convert_to_ref_llama_state_dict` (llama/interop.py:24-39). -/
def toRefKeyMap : List (Key × Key) := keyMap [
  (r"^decoder\.layers\.([0-9]+)\.self_attn\.q_proj\.", r"layers.\1.attention.wq."),
  (r"^decoder\.layers\.([0-9]+)\.self_attn\.k_proj\.", r"layers.\1.attention.wk."),
  (r"^decoder\.layers\.([0-9]+)\.self_attn\.v_proj\.", r"layers.\1.attention.wv."),
  (r"^decoder\.layers\.([0-9]+)\.self_attn\.output_proj\.", r"layers.\1.attention.wo."),
  (r"^decoder\.layers\.([0-9]+)\.self_attn_layer_norm\.", r"layers.\1.attention_norm."),
  (r"^decoder\.layers\.([0-9]+)\.ffn\.gate_proj\.", r"layers.\1.feed_forward.w1."),
  (r"^decoder\.layers\.([0-9]+)\.ffn\.output_proj\.", r"layers.\1.feed_forward.w2."),
  (r"^decoder\.layers\.([0-9]+)\.ffn\.inner_proj\.", r"layers.\1.feed_forward.w3."),
  (r"^decoder\.layers\.([0-9]+)\.ffn_layer_norm\.", r"layers.\1.ffn_norm."),
  (r"^decoder\.layer_norm\.", r"norm."),
  (r"^decoder_frontend\.embed\.", r"tok_embeddings."),
  (r"^final_proj\.", r"output.")]

/-- `_HG_KEY_MAP` (llama/interop.py:44-59). -/
def llamaKeyMap : List (Key × Key) := keyMap [
  (r"^model\.layers\.([0-9]+)\.self_attn\.q_proj\.", r"decoder.layers.\1.self_attn.q_proj."),
  (r"^model\.layers\.([0-9]+)\.self_attn\.k_proj\.", r"decoder.layers.\1.self_attn.k_proj."),
  (r"^model\.layers\.([0-9]+)\.self_attn\.v_proj\.", r"decoder.layers.\1.self_attn.v_proj."),
  (r"^model\.layers\.([0-9]+)\.self_attn\.o_proj\.", r"decoder.layers.\1.self_attn.output_proj."),
  (r"^model\.layers\.([0-9]+)\.post_attention_layernorm\.", r"decoder.layers.\1.ffn_layer_norm."),
  (r"^model\.layers\.([0-9]+)\.mlp\.gate_proj\.", r"decoder.layers.\1.ffn.gate_proj."),
  (r"^model\.layers\.([0-9]+)\.mlp\.down_proj\.", r"decoder.layers.\1.ffn.output_proj."),
  (r"^model\.layers\.([0-9]+)\.mlp\.up_proj\.", r"decoder.layers.\1.ffn.inner_proj."),
  (r"^model\.layers\.([0-9]+)\.input_layernorm\.", r"decoder.layers.\1.self_attn_layer_norm."),
  (r"^model\.norm\.", r"decoder.layer_norm."),
  (r"^model\.embed_tokens\.", r"decoder_frontend.embed."),
  (r"^lm_head\.", r"final_proj.")]

/-- `key_map` of the reference branch of `convert_llama_state_dict` (llama/interop.py:98-113). -/
def refKeyMap : List (Key × Key) := keyMap [
  (r"^layers\.([0-9]+)\.attention\.wq\.", r"decoder.layers.\1.self_attn.q_proj."),
  (r"^layers\.([0-9]+)\.attention\.wk\.", r"decoder.layers.\1.self_attn.k_proj."),
  (r"^layers\.([0-9]+)\.attention\.wv\.", r"decoder.layers.\1.self_attn.v_proj."),
  (r"^layers\.([0-9]+)\.attention\.wo\.", r"decoder.layers.\1.self_attn.output_proj."),
  (r"^layers\.([0-9]+)\.attention_norm\.", r"decoder.layers.\1.self_attn_layer_norm."),
  (r"^layers\.([0-9]+)\.feed_forward\.w1\.", r"decoder.layers.\1.ffn.gate_proj."),
  (r"^layers\.([0-9]+)\.feed_forward\.w2\.", r"decoder.layers.\1.ffn.output_proj."),
  (r"^layers\.([0-9]+)\.feed_forward\.w3\.", r"decoder.layers.\1.ffn.inner_proj."),
  (r"^layers\.([0-9]+)\.ffn_norm\.", r"decoder.layers.\1.ffn_layer_norm."),
  (r"^norm\.", r"decoder.layer_norm."),
  (r"^tok_embeddings\.", r"decoder_frontend.embed."),
  (r"^output\.", r"final_proj.")]

/-- `_HG_KEY_MAP` (qwen/interop.py:18-35). -/
def qwenKeyMap : List (Key × Key) := keyMap [
  (r"^model\.layers\.([0-9]+)\.self_attn\.q_proj\.", r"decoder.layers.\1.self_attn.q_proj."),
  (r"^model\.layers\.([0-9]+)\.self_attn\.k_proj\.", r"decoder.layers.\1.self_attn.k_proj."),
  (r"^model\.layers\.([0-9]+)\.self_attn\.v_proj\.", r"decoder.layers.\1.self_attn.v_proj."),
  (r"^model\.layers\.([0-9]+)\.self_attn\.q_norm\.", r"decoder.layers.\1.self_attn.q_norm."),
  (r"^model\.layers\.([0-9]+)\.self_attn\.k_norm\.", r"decoder.layers.\1.self_attn.k_norm."),
  (r"^model\.layers\.([0-9]+)\.self_attn\.o_proj\.", r"decoder.layers.\1.self_attn.output_proj."),
  (r"^model\.layers\.([0-9]+)\.post_attention_layernorm\.", r"decoder.layers.\1.ffn_layer_norm."),
  (r"^model\.layers\.([0-9]+)\.mlp\.up_proj\.", r"decoder.layers.\1.ffn.inner_proj."),
  (r"^model\.layers\.([0-9]+)\.mlp\.gate_proj\.", r"decoder.layers.\1.ffn.gate_proj."),
  (r"^model\.layers\.([0-9]+)\.mlp\.down_proj\.", r"decoder.layers.\1.ffn.output_proj."),
  (r"^model\.layers\.([0-9]+)\.input_layernorm\.", r"decoder.layers.\1.self_attn_layer_norm."),
  (r"^model\.norm\.", r"decoder.layer_norm."),
  (r"^model\.embed_tokens\.", r"decoder_frontend.embed."),
  (r"^lm_head\.", r"final_proj.")]

/-- `_HG_KEY_MAP` (olmo/interop.py:18-49). -/
def olmoKeyMap : List (Key × Key) := keyMap [
  (r"^model\.layers\.([0-9]+)\.self_attn\.q_proj\.", r"decoder.layers.\1.self_attn.q_proj."),
  (r"^model\.layers\.([0-9]+)\.self_attn\.k_proj\.", r"decoder.layers.\1.self_attn.k_proj."),
  (r"^model\.layers\.([0-9]+)\.self_attn\.v_proj\.", r"decoder.layers.\1.self_attn.v_proj."),
  (r"^model\.layers\.([0-9]+)\.self_attn\.o_proj\.", r"decoder.layers.\1.self_attn.output_proj."),
  (r"^model\.layers\.([0-9]+)\.self_attn\.q_norm\.", r"decoder.layers.\1.self_attn.q_norm."),
  (r"^model\.layers\.([0-9]+)\.self_attn\.k_norm\.", r"decoder.layers.\1.self_attn.k_norm."),
  (r"^model\.layers\.([0-9]+)\.post_attention_layernorm\.", r"decoder.layers.\1.self_attn_layer_norm."),
  (r"^model\.layers\.([0-9]+)\.post_feedforward_layernorm\.", r"decoder.layers.\1.ffn_layer_norm."),
  (r"^model\.layers\.([0-9]+)\.mlp\.gate_proj\.", r"decoder.layers.\1.ffn.gate_proj."),
  (r"^model\.layers\.([0-9]+)\.mlp\.down_proj\.", r"decoder.layers.\1.ffn.output_proj."),
  (r"^model\.layers\.([0-9]+)\.mlp\.up_proj\.", r"decoder.layers.\1.ffn.inner_proj."),
  (r"^model\.norm\.", r"decoder.layer_norm."),
  (r"^model\.embed_tokens\.", r"decoder_frontend.embed."),
  (r"^lm_head\.", r"final_proj.")]

/-- What the converters read of `LLaMAConfig`, `QwenConfig` and `OLMOConfig`. -/
structure Config where
  modelDim : Nat
  numLayers : Nat
  numAttnHeads : Nat
  numKeyValueHeads : Nat
  tiedEmbeddings : Bool

abbrev Tensors (α : Type) := Dict (List α)

/-- `f"{pre}{idx}{post}"`. -/
def layerKey (pre : String) (idx : Nat) (post : String) : Key :=
  pre.toList ++ ((Nat.repr idx).toList ++ post.toList)

/-- The loops over the layers (llama/interop.py:82-94, 194-205), for the first `n` layers. -/
def permuteLayers {α : Type} (permute : Nat → List α → Option (List α)) (pre : String) (cfg : Config)
    (n : Nat) (sd : Tensors α) : Option (Tensors α) :=
  (List.range n).foldlM (fun sd idx => do
    let qKey := layerKey pre idx ".self_attn.q_proj.weight"
    let kKey := layerKey pre idx ".self_attn.k_proj.weight"
    let q ← Dict.get? sd qKey
    let k ← Dict.get? sd kKey
    let q ← permute cfg.numAttnHeads q
    let k ← permute cfg.numKeyValueHeads k
    some (Dict.put (Dict.put sd qKey q) kKey k)) sd

/-- The end of the converters to fairseq2 (llama/interop.py:120-121, qwen/interop.py:44-45,
olmo/interop.py:72-73). -/
def tieEmbeddings {α : Type} (cfg : Config) (sd : Tensors α) : Option (Tensors α) :=
  if cfg.tiedEmbeddings then do
    let embed ← Dict.get? sd "decoder_frontend.embed.weight".toList
    some (Dict.put sd "final_proj.weight".toList embed)
  else some sd

/-- `convert_llama_state_dict` (llama/interop.py:62-123) of a dictionary that is not wrapped in another
one under the key `model`: the result, and the caller's dictionary afterwards. -/
def convertLlama {α : Type} (cfg : Config) (sd : Tensors α) : Option (Tensors α × Tensors α) :=
  if Dict.has sd "model.embed_tokens.weight".toList then
    if cfg.numAttnHeads = 0 then none else do
    let permuted ← permuteLayers (fun heads => permuteRotary heads (cfg.modelDim / cfg.numAttnHeads))
      "model.layers." cfg cfg.numLayers sd
    let converted ← convertStateDict permuted llamaKeyMap
    let tied ← tieEmbeddings cfg converted
    some (tied, permuted)
  else if Dict.has sd "tok_embeddings.weight".toList then do
    let kept := sd.filter fun e => !contains "rope.freqs".toList e.1
    let converted ← convertStateDict kept refKeyMap
    let tied ← tieEmbeddings cfg converted
    some (tied, sd)
  else do
    let tied ← tieEmbeddings cfg sd
    some (tied, tied)

/-- The end of the converters to Hugging Face (llama/interop.py:211-212, qwen/interop.py:87-88,
olmo/interop.py:151-152). -/
def untieEmbeddings {α : Type} (cfg : Config) (sd : Tensors α) : Option (Tensors α) :=
  if cfg.tiedEmbeddings then Dict.del sd "lm_head.weight".toList else some sd

/-- `_LLaMAHuggingFaceConverter.to_hg_state_dict` (llama/interop.py:174-214): the result, and the
caller's dictionary afterwards. -/
def llamaToHg {α : Type} (cfg : Config) (sd : Tensors α) : Option (Tensors α × Tensors α) :=
  if cfg.numAttnHeads = 0 then none else do
  let permuted ← permuteLayers (fun heads => permuteRotaryBack heads (cfg.modelDim / cfg.numAttnHeads))
    "decoder.layers." cfg cfg.numLayers sd
  let converted ← convertStateDict permuted (createReverseKeyMap llamaKeyMap)
  let untied ← untieEmbeddings cfg converted
  some (untied, permuted)

/-- `convert_to_ref_llama_state_dict` (llama/interop.py:20-41). -/
def llamaToRef {α : Type} (sd : Tensors α) : Option (Tensors α) := convertStateDict sd toRefKeyMap

/-- `convert_qwen_state_dict` (qwen/interop.py:38-47) and `convert_olmo_state_dict`
(olmo/interop.py:52-75), given the key map. -/
def convertPlain {α : Type} (m : List (Key × Key)) (cfg : Config) (sd : Tensors α) :
    Option (Tensors α) := do
  let sd ← if Dict.has sd "model.embed_tokens.weight".toList then convertStateDict sd m else some sd
  tieEmbeddings cfg sd

/-- `to_hg_state_dict` of Qwen and OLMo (qwen/interop.py:78-90, olmo/interop.py:142-154), given the key
map. -/
def plainToHg {α : Type} (m : List (Key × Key)) (cfg : Config) (sd : Tensors α) :
    Option (Tensors α) := do
  let sd ← convertStateDict sd (createReverseKeyMap m)
  untieEmbeddings cfg sd

/-! ## The size of the feed-forward network -/

/-- What determines the inner dimension of the feed-forward network. Numbers that are floats in
`LLaMAConfig` are rationals. -/
structure FfnConfig where
  modelDim : Nat
  ffnInnerDim : Nat
  ffnInnerDimScale : Rat
  ffnInnerDimMultiplier : Rat
  ffnInnerDimMultipleOf : Nat

/-- Rounds up to a multiple (ffn.py:300-303). -/
def roundUp (multiple n : Nat) : Nat := multiple * ((n + multiple - 1) / multiple)

/-- The inner dimension of the model: `create_ffn` (llama/factory.py:217-226) and
`GLUFeedForwardNetwork.__init__` (transformer/ffn.py:297-303). `int` rounds down, as nothing is
negative. -/
def FfnConfig.innerDim (c : FfnConfig) : Nat :=
  let innerDim := ((c.ffnInnerDim : Rat) * c.ffnInnerDimMultiplier).floor.toNat
  let innerDim :=
    if c.ffnInnerDimScale ≠ 1 then ((innerDim : Rat) * c.ffnInnerDimScale).floor.toNat else innerDim
  if c.ffnInnerDimMultipleOf ≠ 1 then roundUp c.ffnInnerDimMultipleOf innerDim else innerDim

/-- `intermediate_size` of `to_hg_config` (llama/interop.py:132-136). -/
def FfnConfig.intermediateSize (c : FfnConfig) : Nat :=
  roundUp c.ffnInnerDimMultipleOf
    (c.ffnInnerDimMultiplier * ((8 * (c.modelDim : Rat) / 3).floor.toNat : Rat)).floor.toNat

end Fs2.Interop
