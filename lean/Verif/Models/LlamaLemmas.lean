import Verif.Models.Llama
import Verif.Models.ConvertLemmas
import Std.Data.String.ToNat

/-!
# Lemmas about the converters of language models
-/

namespace Fs2.Interop

variable {α : Type}

theorem repr_number (n : Nat) : Number (Nat.repr n).toList := by
  constructor
  · intro h
    simp at h
  · intro c hc
    have : c ∈ Nat.toDigits 10 n := by
      simpa [Nat.repr] using hc
    exact Nat.isDigit_of_mem_toDigits (by decide) (by decide) this

theorem repr_list_inj {m n : Nat} (h : (Nat.repr m).toList = (Nat.repr n).toList) : m = n :=
  Nat.repr_injective (String.toList_injective h)

/-- The text starts with something that is no digit. -/
def NoDigitFirst (s : String) : Prop := ∃ c cs, s.toList = c :: cs ∧ c.isDigit = false

theorem layerKey_inj {pre post post' : String} (hp : NoDigitFirst post) (hp' : NoDigitFirst post')
    {m n : Nat} (h : layerKey pre m post = layerKey pre n post') : m = n ∧ post.toList = post'.toList := by
  have h1 := List.append_cancel_left h
  obtain ⟨c, cs, e, hc⟩ := hp
  obtain ⟨c', cs', e', hc'⟩ := hp'
  rw [e, e'] at h1
  have w1 := takeWhile_digits (s := cs) (repr_number m).2 hc
  have w2 := takeWhile_digits (s := cs') (repr_number n).2 hc'
  rw [h1, w2] at w1
  have hmn := repr_list_inj w1
  subst hmn
  rw [e, e']
  exact ⟨rfl, List.append_cancel_left h1⟩

def qPost : String := ".self_attn.q_proj.weight"
def kPost : String := ".self_attn.k_proj.weight"

theorem qPost_first : NoDigitFirst qPost := ⟨'.', _, rfl, rfl⟩
theorem kPost_first : NoDigitFirst kPost := ⟨'.', _, rfl, rfl⟩

theorem post_ne : qPost.toList ≠ kPost.toList := by decide +kernel

/-- The number of heads, if the key is that of a query or key weight of the first `n` layers. -/
def headsOf (cfg : Config) (pre : String) (n : Nat) (key : Key) : Option Nat :=
  (List.range n).findSome? fun idx =>
    if key = layerKey pre idx qPost then some cfg.numAttnHeads
    else if key = layerKey pre idx kPost then some cfg.numKeyValueHeads
    else none

theorem headsOf_some {cfg : Config} {pre : String} {n : Nat} {key : Key} {H : Nat} :
    headsOf cfg pre n key = some H ↔ ∃ idx, idx < n ∧
      ((key = layerKey pre idx qPost ∧ H = cfg.numAttnHeads) ∨
       (key = layerKey pre idx kPost ∧ H = cfg.numKeyValueHeads)) := by
  induction n with
  | zero => simp [headsOf]
  | succ n ih =>
    rw [headsOf, List.range_succ, List.findSome?_append]
    constructor
    · intro h
      rw [Option.or_eq_some_iff] at h
      rcases h with h | ⟨-, h⟩
      · obtain ⟨idx, hi, h⟩ := ih.1 h
        exact ⟨idx, by omega, h⟩
      · simp only [List.findSome?_cons, List.findSome?_nil] at h
        refine ⟨n, by omega, ?_⟩
        by_cases h1 : key = layerKey pre n qPost
        · rw [if_pos h1] at h
          exact Or.inl ⟨h1, (Option.some.inj h).symm⟩
        · rw [if_neg h1] at h
          by_cases h2 : key = layerKey pre n kPost
          · rw [if_pos h2] at h
            exact Or.inr ⟨h2, (Option.some.inj h).symm⟩
          · rw [if_neg h2] at h
            cases h
    · rintro ⟨idx, hi, h⟩
      rw [Option.or_eq_some_iff]
      by_cases hlt : idx < n
      · exact Or.inl (ih.2 ⟨idx, hlt, h⟩)
      · have : idx = n := by omega
        subst this
        refine Or.inr ⟨?_, ?_⟩
        · cases hh : (List.range idx).findSome? fun idx =>
            if key = layerKey pre idx qPost then some cfg.numAttnHeads
            else if key = layerKey pre idx kPost then some cfg.numKeyValueHeads
            else none with
          | none => rfl
          | some H' =>
            exfalso
            have hs : headsOf cfg pre idx key = some H' := hh
            rw [headsOf, List.findSome?_eq_some_iff] at hs
            obtain ⟨l1, j, l2, hr, hj, -⟩ := hs
            have hjl : j < idx := by
              have : j ∈ List.range idx := by rw [hr]; simp
              exact List.mem_range.1 this
            have key_j : key = layerKey pre j qPost ∨ key = layerKey pre j kPost := by
              by_cases h1 : key = layerKey pre j qPost
              · exact Or.inl h1
              · rw [if_neg h1] at hj
                by_cases h2 : key = layerKey pre j kPost
                · exact Or.inr h2
                · rw [if_neg h2] at hj; cases hj
            have : j = idx := by
              rcases key_j with hk | hk <;> rcases h with ⟨h, -⟩ | ⟨h, -⟩
              · exact (layerKey_inj qPost_first qPost_first (hk.symm.trans h)).1
              · exact (layerKey_inj qPost_first kPost_first (hk.symm.trans h)).1
              · exact (layerKey_inj kPost_first qPost_first (hk.symm.trans h)).1
              · exact (layerKey_inj kPost_first kPost_first (hk.symm.trans h)).1
            omega
        · simp only [List.findSome?_cons, List.findSome?_nil]
          rcases h with ⟨h, rfl⟩ | ⟨h, rfl⟩
          · rw [if_pos h]
          · rw [if_neg, if_pos h]
            intro h'
            exact post_ne (layerKey_inj qPost_first kPost_first (h'.symm.trans h)).2

theorem headsOf_q (cfg : Config) (pre : String) {n idx : Nat} (h : idx < n) :
    headsOf cfg pre n (layerKey pre idx qPost) = some cfg.numAttnHeads :=
  headsOf_some.2 ⟨idx, h, Or.inl ⟨rfl, rfl⟩⟩

theorem headsOf_k (cfg : Config) (pre : String) {n idx : Nat} (h : idx < n) :
    headsOf cfg pre n (layerKey pre idx kPost) = some cfg.numKeyValueHeads :=
  headsOf_some.2 ⟨idx, h, Or.inr ⟨rfl, rfl⟩⟩

theorem headsOf_new {cfg : Config} {pre post : String} {n : Nat} (hp : NoDigitFirst post) :
    headsOf cfg pre n (layerKey pre n post) = none := by
  cases h : headsOf cfg pre n (layerKey pre n post) with
  | none => rfl
  | some H =>
    obtain ⟨idx, hi, ⟨h, -⟩ | ⟨h, -⟩⟩ := headsOf_some.1 h
    · have := (layerKey_inj hp qPost_first h).1; omega
    · have := (layerKey_inj hp kPost_first h).1; omega

theorem headsOf_succ (cfg : Config) (pre : String) (n : Nat) (key : Key) :
    headsOf cfg pre (n + 1) key =
      if key = layerKey pre n qPost then some cfg.numAttnHeads
      else if key = layerKey pre n kPost then some cfg.numKeyValueHeads
      else headsOf cfg pre n key := by
  split
  · rename_i h; rw [h]; exact headsOf_q cfg pre (by omega)
  · rename_i h1
    split
    · rename_i h; rw [h]; exact headsOf_k cfg pre (by omega)
    · rename_i h2
      rw [headsOf, headsOf, List.range_succ, List.findSome?_append]
      simp only [List.findSome?_cons, List.findSome?_nil, if_neg h1, if_neg h2, Option.or_none]

/-- The value an entry gets. -/
def newValue (permute : Nat → List α → Option (List α)) (cfg : Config) (pre : String) (n : Nat)
    (key : Key) (w : List α) : List α :=
  match headsOf cfg pre n key with
  | some H => (permute H w).getD w
  | none => w

/-- The dictionary with the new values. -/
def newValues (permute : Nat → List α → Option (List α)) (cfg : Config) (pre : String) (n : Nat)
    (sd : Tensors α) : Tensors α :=
  sd.map fun e => (e.1, newValue permute cfg pre n e.1 e.2)

theorem get?_map_val {V W : Type} (g : Key → V → W) (k : Key) : ∀ sd : Dict V,
    Dict.get? (sd.map fun e => (e.1, g e.1 e.2)) k = (Dict.get? sd k).map (g k)
  | [] => rfl
  | e :: sd => by
    have ih := get?_map_val g k sd
    simp only [Dict.get?, List.map_cons, List.find?_cons] at ih ⊢
    by_cases h : e.1 = k
    · subst h; simp
    · have hb : (e.1 == k) = false := by simpa using h
      simp only [hb]
      exact ih

theorem get?_mem {V : Type} {sd : Dict V} {k : Key} {v : V} (h : Dict.get? sd k = some v) :
    (k, v) ∈ sd := by
  simp only [Dict.get?, Option.map_eq_some_iff] at h
  obtain ⟨e, he, rfl⟩ := h
  have h1 := List.find?_some he
  simp only [beq_iff_eq] at h1
  subst h1
  exact List.mem_of_find?_eq_some he

theorem get?_of_mem {V : Type} : ∀ {sd : Dict V} {k : Key} {v : V}, (sd.map (·.1)).Nodup →
    (k, v) ∈ sd → Dict.get? sd k = some v
  | e :: sd, k, v, hn, hm => by
    rw [List.map_cons, List.nodup_cons] at hn
    simp only [Dict.get?, List.find?_cons]
    rcases List.mem_cons.1 hm with h | h
    · subst h; simp
    · have : e.1 ≠ k := by
        intro he
        exact hn.1 (he ▸ List.mem_map.2 ⟨(k, v), h, rfl⟩)
      have hb : (e.1 == k) = false := by simpa using this
      simp only [hb]
      exact get?_of_mem hn.2 h

theorem get?_none {V : Type} {sd : Dict V} {k : Key} : Dict.get? sd k = none ↔ k ∉ sd.map (·.1) := by
  simp only [Dict.get?, Option.map_eq_none_iff, List.find?_eq_none, List.mem_map, beq_iff_eq]
  constructor
  · rintro h ⟨e, he, rfl⟩; exact h e he rfl
  · intro h e he hk; exact h ⟨e, he, hk⟩

theorem put_old {V : Type} {sd : Dict V} {k : Key} {v : V} (h : k ∈ sd.map (·.1)) :
    Dict.put sd k v = sd.map fun e => (e.1, if e.1 = k then v else e.2) := by
  rw [Dict.put, if_pos (has_iff.2 h)]
  apply List.map_congr_left
  intro e _
  by_cases he : e.1 = k
  · subst he; simp
  · simp [he]

/-- All weights are there and can be permuted. -/
def LayersReady (permute : Nat → List α → Option (List α)) (cfg : Config) (pre : String) (n : Nat)
    (sd : Tensors α) : Prop :=
  ∀ idx, idx < n → ∃ q k q' k', Dict.get? sd (layerKey pre idx qPost) = some q ∧
    Dict.get? sd (layerKey pre idx kPost) = some k ∧ permute cfg.numAttnHeads q = some q' ∧
    permute cfg.numKeyValueHeads k = some k'

theorem permuteLayers_spec (permute : Nat → List α → Option (List α)) (cfg : Config) (pre : String)
    (sd : Tensors α) (hn : (sd.map (·.1)).Nodup) : ∀ n,
    (LayersReady permute cfg pre n sd →
      permuteLayers permute pre cfg n sd = some (newValues permute cfg pre n sd)) ∧
    (¬ LayersReady permute cfg pre n sd → permuteLayers permute pre cfg n sd = none)
  | 0 => by
    refine ⟨fun _ => ?_, fun h => absurd (fun idx hi => absurd hi (by omega)) h⟩
    have e0 : newValues permute cfg pre 0 sd = sd := by
      simp [newValues, newValue, headsOf]
    rw [e0]
    rfl
  | n + 1 => by
    obtain ⟨ih1, ih2⟩ := permuteLayers_spec permute cfg pre sd hn n
    have hq : ∀ post, NoDigitFirst post → Dict.get? (newValues permute cfg pre n sd)
        (layerKey pre n post) = Dict.get? sd (layerKey pre n post) := by
      intro post hp
      rw [newValues, get?_map_val]
      have : newValue permute cfg pre n (layerKey pre n post) = id := by
        funext w
        simp only [newValue, headsOf_new hp, id]
      rw [this, Option.map_id, id]
    have estep : permuteLayers permute pre cfg (n + 1) sd =
        (permuteLayers permute pre cfg n sd).bind fun sd =>
          (Dict.get? sd (layerKey pre n qPost)).bind fun q =>
          (Dict.get? sd (layerKey pre n kPost)).bind fun k =>
          (permute cfg.numAttnHeads q).bind fun q =>
          (permute cfg.numKeyValueHeads k).bind fun k =>
          some (Dict.put (Dict.put sd (layerKey pre n qPost) q) (layerKey pre n kPost) k) := by
      rw [permuteLayers, List.range_succ, List.foldlM_append]
      simp only [List.foldlM_cons, List.foldlM_nil, permuteLayers]
      simp only [bind, pure, Option.bind_fun_some]
      rfl
    rw [estep]
    by_cases hr : LayersReady permute cfg pre n sd
    · rw [ih1 hr, Option.bind_some, hq _ qPost_first, hq _ kPost_first]
      constructor
      · intro h
        obtain ⟨q, k, q', k', h1, h2, h3, h4⟩ := h n (by omega)
        rw [h1, h2]
        simp only [Option.bind_some, h3, h4]
        congr 1
        have hk1 : layerKey pre n qPost ∈ (newValues permute cfg pre n sd).map (·.1) := by
          simp only [newValues, List.map_map]
          exact List.mem_map.2 ⟨_, get?_mem h1, rfl⟩
        rw [put_old hk1, put_old]
        · simp only [newValues, List.map_map]
          apply List.map_congr_left
          intro e he
          simp only [Function.comp_apply, newValue, headsOf_succ, Prod.mk.injEq, true_and]
          by_cases hk : e.1 = layerKey pre n kPost
          · have hne : e.1 ≠ layerKey pre n qPost := by
              intro hq'
              exact post_ne (layerKey_inj qPost_first kPost_first (hq'.symm.trans hk)).2
            rw [if_pos hk, if_neg hne, if_pos hk]
            have : e.2 = k := by
              have h5 := get?_of_mem hn (k := e.1) (v := e.2) he
              rw [hk, h2] at h5
              exact (Option.some.inj h5).symm
            simp only [this, h4]
            rfl
          · rw [if_neg hk]
            by_cases hq' : e.1 = layerKey pre n qPost
            · rw [if_pos hq', if_pos hq']
              have : e.2 = q := by
                have h5 := get?_of_mem hn (k := e.1) (v := e.2) he
                rw [hq', h1] at h5
                exact (Option.some.inj h5).symm
              simp only [this, h3]
              rfl
            · rw [if_neg hq', if_neg hq', if_neg hk]
        · simp only [newValues, List.map_map]
          exact List.mem_map.2 ⟨_, get?_mem h2, rfl⟩
      · intro h
        cases h1 : Dict.get? sd (layerKey pre n qPost) with
        | none => rfl
        | some q =>
          cases h2 : Dict.get? sd (layerKey pre n kPost) with
          | none => rfl
          | some k =>
            simp only [Option.bind_some]
            cases h3 : permute cfg.numAttnHeads q with
            | none => rfl
            | some q' =>
              cases h4 : permute cfg.numKeyValueHeads k with
              | none => rfl
              | some k' =>
                exfalso
                apply h
                intro idx hi
                by_cases hlt : idx < n
                · exact hr idx hlt
                · have : idx = n := by omega
                  subst this
                  exact ⟨q, k, q', k', h1, h2, h3, h4⟩
    · rw [ih2 hr]
      refine ⟨fun h => absurd (fun idx hi => h idx (by omega)) hr, fun _ => rfl⟩

theorem permuteLayers_some {permute : Nat → List α → Option (List α)} {cfg : Config} {pre : String}
    {sd sd' : Tensors α} {n : Nat} (hn : (sd.map (·.1)).Nodup)
    (h : permuteLayers permute pre cfg n sd = some sd') :
    LayersReady permute cfg pre n sd ∧ sd' = newValues permute cfg pre n sd := by
  by_cases hr : LayersReady permute cfg pre n sd
  · rw [(permuteLayers_spec permute cfg pre sd hn n).1 hr] at h
    exact ⟨hr, (Option.some.inj h).symm⟩
  · rw [(permuteLayers_spec permute cfg pre sd hn n).2 hr] at h
    cases h

end Fs2.Interop
