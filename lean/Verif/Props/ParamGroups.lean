import Verif.Optim.Groups

/-!
Property C93: parameter groups of optimizers.
-/

namespace Fs2.Props

open Fs2.Groups

variable {P V : Type}

/-! ### Specification -/

/-- A pattern of the configuration is the name, or is found in it. -/
def Names (find : String → String → Bool) (c : Config V) (name : String) : Prop :=
  ∃ p ∈ c.params, p = name ∨ find p name = true

instance (find : String → String → Bool) (c : Config V) (name : String) : Decidable (Names find c name) :=
  inferInstanceAs (Decidable (∃ p ∈ c.params, p = name ∨ find p name = true))

/-- The parameters that belong to configuration number `i`: the first one that names them; the last number is for those that none
names. -/
def groupOf (find : String → String → Bool) : List (Config V) → String → Nat
  | [], _ => 0
  | c :: cs, name => if Names find c name then 0 else groupOf find cs name + 1

/-- What the optimizer should get for configuration number `i`: the settings it makes, and its parameters in the order of the model. -/
def groupFor (find : String → String → Bool) (configs : List (Config V)) (params : List (String × P)) (i : Nat) :
    List (String × V) × List P :=
  (match configs[i]? with
    | none => []
    | some c => c.fields.filterMap fun f => f.2.map fun v => (f.1, v),
  (params.filter fun x => groupOf find configs x.1 == i).map (·.2))

/-! ### Lemmas -/

private theorem hit_iff (find : String → String → Bool) (c : Config V) (name : String) :
    hit find c.params name = true ↔ Names find c name := by
  unfold hit Names
  rw [List.any_eq_true]
  constructor
  · rintro ⟨p, hp, h⟩
    refine ⟨p, hp, ?_⟩
    rw [Bool.or_eq_true, beq_iff_eq] at h
    exact h.imp Eq.symm id
  · rintro ⟨p, hp, h⟩
    refine ⟨p, hp, ?_⟩
    rw [Bool.or_eq_true, beq_iff_eq]
    exact h.imp Eq.symm id

/-- The groups with given parameters. -/
private def withParams (configs : List (Config V)) (ps : Nat → List P) : List (Group P V) :=
  configs.mapIdx (fun i c => { (fromConfig c : Group P V) with params := ps i }) ++
    [{ (fallback : Group P V) with params := ps configs.length }]

private theorem assign_eq (find : String → String → Bool) (hall : ∀ name, find ".*" name = true) (configs : List (Config V))
    (ps : Nat → List P) (name : String) (param : P) :
    assign find name param (withParams configs ps) =
      withParams configs fun i => if groupOf find configs name = i then ps i ++ [param] else ps i := by
  induction configs generalizing ps with
  | nil =>
    simp [withParams, assign, fallback, hit, hall, groupOf]
  | cons c cs ih =>
    have h := ih fun i => ps (i + 1)
    unfold withParams at h ⊢
    simp only [List.mapIdx_cons, List.cons_append, List.length_cons, assign]
    by_cases hc : Names find c name
    · have hg : groupOf find (c :: cs) name = 0 := by rw [groupOf, if_pos hc]
      rw [if_pos (show hit find (fromConfig c : Group P V).patterns name = true from (hit_iff find c name).2 hc), hg]
      simp [fromConfig]
    · have hg : groupOf find (c :: cs) name = groupOf find cs name + 1 := by rw [groupOf, if_neg hc]
      rw [if_neg (show ¬ hit find (fromConfig c : Group P V).patterns name = true from fun h => hc ((hit_iff find c name).1 h)), h, hg]
      simp

private theorem assign_all (find : String → String → Bool) (hall : ∀ name, find ".*" name = true) (configs : List (Config V))
    (params : List (String × P)) (ps : Nat → List P) :
    params.foldl (fun gs x => assign find x.1 x.2 gs) (withParams configs ps) =
      withParams configs fun i => ps i ++ (params.filter fun x => groupOf find configs x.1 == i).map (·.2) := by
  induction params generalizing ps with
  | nil => simp
  | cons x xs ih =>
    rw [List.foldl_cons, assign_eq find hall, ih]
    congr 1
    funext i
    by_cases h : groupOf find configs x.1 = i
    · simp [h]
    · simp [h]

private theorem emit_eq (gs : List (Group P V)) :
    emit gs = (gs.filter fun g => !(g.params.isEmpty && g.patterns = [".*"])).map fun g => (g.kwargs, g.params) := by
  induction gs with
  | nil => rfl
  | cons g gs ih =>
    rw [emit]
    by_cases h1 : g.params.isEmpty = true
    · by_cases h2 : g.patterns = [".*"]
      · simp [h1, h2, ih]
      · simp [h1, h2, ih]
    · simp [h1, ih]

private theorem groupOf_le (find : String → String → Bool) (configs : List (Config V)) (name : String) :
    groupOf find configs name ≤ configs.length := by
  induction configs with
  | nil => simp [groupOf]
  | cons c cs ih => unfold groupOf; split <;> simp; omega

private theorem start_eq (configs : List (Config V)) :
    (configs.map fromConfig ++ [fallback] : List (Group P V)) = withParams configs fun _ => [] := by
  unfold withParams
  congr 1
  apply List.ext_getElem <;> simp [fromConfig]

private theorem withParams_eq (configs : List (Config V)) (ps : Nat → List P) :
    withParams configs ps = (List.range (configs.length + 1)).map fun i =>
      (⟨match configs[i]? with | none => [".*"] | some c => c.params,
        match configs[i]? with | none => [] | some c => c.fields.filterMap fun f => f.2.map fun v => (f.1, v), ps i⟩ : Group P V) := by
  apply List.ext_getElem?
  intro i
  unfold withParams
  rw [List.getElem?_map]
  by_cases h : i < configs.length
  · rw [List.getElem?_append_left (by simpa using h), List.getElem?_mapIdx, List.getElem?_range (by omega)]
    simp only [Option.map_some, List.getElem?_eq_getElem h, fromConfig]
  · by_cases h' : i = configs.length
    · subst h'
      rw [List.getElem?_append_right (by simp), List.getElem?_range (by omega)]
      simp [fallback]
    · rw [List.getElem?_eq_none (by simp; omega), List.getElem?_eq_none (by simp; omega)]
      rfl

/-! ### C93 -/

/-- Number `i` is that of the first configuration that names the parameter. -/
theorem C93_first (find : String → String → Bool) (configs : List (Config V)) (name : String) (i : Nat) :
    groupOf find configs name = i ↔
      (∀ j c, j < i → configs[j]? = some c → ¬ Names find c name) ∧
      ((∃ c, configs[i]? = some c ∧ Names find c name) ∨ (i = configs.length)) ∧ i ≤ configs.length := by
  induction configs generalizing i with
  | nil =>
    simp only [groupOf, List.getElem?_nil, List.length_nil]
    constructor
    · rintro rfl; simp
    · rintro ⟨_, _, h⟩; omega
  | cons c cs ih =>
    unfold groupOf
    by_cases hc : Names find c name
    · rw [if_pos hc]
      constructor
      · rintro rfl
        exact ⟨by intro j _ h; omega, .inl ⟨c, rfl, hc⟩, by simp⟩
      · rintro ⟨h, _, _⟩
        cases i with
        | zero => rfl
        | succ i => exact absurd hc (h 0 c (by omega) rfl)
    · rw [if_neg hc]
      cases i with
      | zero =>
        constructor
        · intro h; omega
        · rintro ⟨_, h | h, _⟩
          · obtain ⟨c', h, h'⟩ := h
            simp only [List.getElem?_cons_zero, Option.some.injEq] at h
            subst h
            exact absurd h' hc
          · simp at h
      | succ i =>
        rw [Nat.add_right_cancel_iff, ih i]
        constructor
        · rintro ⟨h1, h2, h3⟩
          refine ⟨?_, by simpa using h2, by simpa using h3⟩
          intro j c' hj h
          cases j with
          | zero => simp only [List.getElem?_cons_zero, Option.some.injEq] at h; subst h; exact hc
          | succ j => exact h1 j c' (by omega) (by simpa using h)
        · rintro ⟨h1, h2, h3⟩
          refine ⟨?_, by simpa using h2, by simpa using h3⟩
          intro j c' hj h
          exact h1 (j + 1) c' (by omega) (by simpa using h)

/-- The optimizer gets the groups in the order of the configurations, each with exactly the settings that its configuration makes
and the parameters that it is the first to name; the parameters that none names come last, without settings. What is left out has no
parameters. -/
theorem C93_groups (find : String → String → Bool) (hall : ∀ name, find ".*" name = true) (configs : List (Config V))
    (hne : configs ≠ []) (params : List (String × P)) :
    ∃ idx : List Nat, idx.Pairwise (· < ·) ∧ (∀ i ∈ idx, i ≤ configs.length) ∧
      prepare find configs params = .groups (idx.map (groupFor find configs params)) ∧
      ∀ i, i ≤ configs.length → (i ∉ idx ↔ (groupFor find configs params i).2 = [] ∧
        ∀ c, configs[i]? = some c → c.params = [".*"]) := by
  let keep : Nat → Bool := fun i => !(((groupFor find configs params i).2).isEmpty &&
    (match configs[i]? with | none => [".*"] | some c => c.params) = [".*"])
  refine ⟨(List.range (configs.length + 1)).filter keep, ?_, ?_, ?_, ?_⟩
  · exact List.Pairwise.filter _ List.pairwise_lt_range
  · intro i hi
    have := List.mem_range.1 (List.mem_filter.1 hi).1
    omega
  · unfold prepare
    rw [if_neg (by simpa using hne), start_eq, assign_all find hall, emit_eq, withParams_eq, List.filter_map, List.map_map]
    congr 1
  · intro i hi
    rw [List.mem_filter, List.mem_range, Classical.not_and_iff_not_or_not]
    constructor
    · rintro (h | h)
      · omega
      · simp only [keep, Bool.not_eq_true', Bool.not_eq_false, Bool.and_eq_true, List.isEmpty_iff, decide_eq_true_eq] at h
        refine ⟨h.1, fun c hc => ?_⟩
        have h2 := h.2
        simp only [hc] at h2
        exact h2
    · rintro ⟨h1, h2⟩
      right
      simp only [keep, Bool.not_eq_true', Bool.not_eq_false, Bool.and_eq_true, List.isEmpty_iff, decide_eq_true_eq]
      refine ⟨h1, ?_⟩
      cases hc : configs[i]? with
      | none => rfl
      | some c => exact h2 c hc

private theorem count_groups (l : List (String × P)) (g : String → Nat) (n : Nat) (h : ∀ x ∈ l, g x.1 < n) (p : P → Bool) :
    ((List.range n).map fun i => ((l.filter fun x => g x.1 == i).map (·.2)).countP p).sum = (l.map (·.2)).countP p := by
  induction l with
  | nil =>
    simp only [List.filter_nil, List.map_nil, List.countP_nil]
    generalize List.range n = r
    induction r with
    | nil => rfl
    | cons x r ih => simp [ih]
  | cons x l ih =>
    have hx := h x (by simp)
    have ih := ih fun y hy => h y (by simp [hy])
    rw [List.map_cons, List.countP_cons, ← ih]
    have key : ∀ r : List Nat, r.Nodup → (r.map fun i => (((x :: l).filter fun x => g x.1 == i).map (·.2)).countP p).sum =
        (r.map fun i => ((l.filter fun x => g x.1 == i).map (·.2)).countP p).sum +
          (if g x.1 ∈ r then (if p x.2 = true then 1 else 0) else 0) := by
      intro r hr
      induction r with
      | nil => simp
      | cons i r ihr =>
        rw [List.nodup_cons] at hr
        rw [List.map_cons, List.sum_cons, ihr hr.2, List.map_cons, List.sum_cons]
        by_cases hi : g x.1 = i
        · have hni : g x.1 ∉ r := hi ▸ hr.1
          rw [if_neg hni, if_pos (by simp [hi])]
          rw [List.filter_cons_of_pos (by simp [hi]), List.map_cons, List.countP_cons]
          omega
        · rw [List.filter_cons_of_neg (by simp [hi])]
          have : (g x.1 ∈ i :: r) ↔ g x.1 ∈ r := by simp [hi]
          simp only [this]
          omega
    rw [key _ List.nodup_range, if_pos (List.mem_range.2 hx)]

/-- No parameter is lost and none is in two groups. -/
theorem C93_partition [DecidableEq P] (find : String → String → Bool) (hall : ∀ name, find ".*" name = true)
    (configs : List (Config V)) (params : List (String × P)) :
    (configs = [] → prepare find configs params = .params (params.map (·.2))) ∧
    (configs ≠ [] → ∃ gs, prepare find configs params = .groups gs ∧ (gs.flatMap (·.2)).Perm (params.map (·.2))) := by
  refine ⟨?_, ?_⟩
  · rintro rfl
    rfl
  · intro hne
    obtain ⟨idx, h1, h2, h3, h4⟩ := C93_groups find hall configs hne params
    refine ⟨_, h3, ?_⟩
    · rw [List.perm_iff_count]
      intro a
      rw [List.count_eq_countP, List.count_eq_countP, ← count_groups params (groupOf find configs) (configs.length + 1)
        (fun x _ => Nat.lt_succ_of_le (groupOf_le find configs x.1)) (· == a)]
      have hflat : ∀ idx : List Nat, ((idx.map (groupFor find configs params)).flatMap (·.2)).countP (· == a) =
          (idx.map fun i => (groupFor find configs params i).2.count a).sum := by
        intro idx
        induction idx with
        | nil => rfl
        | cons i idx ih => rw [List.map_cons, List.flatMap_cons, List.countP_append, ih, List.map_cons, List.sum_cons]; rfl
      rw [hflat]
      have hsub : ∀ r : List Nat, r.Pairwise (· < ·) → (∀ i ∈ r, i ≤ configs.length) → ∀ idx : List Nat, idx.Pairwise (· < ·) →
          (∀ i ∈ idx, i ∈ r) → (∀ i ∈ r, i ∉ idx → (groupFor find configs params i).2 = []) →
          (idx.map fun i => (groupFor find configs params i).2.count a).sum =
            (r.map fun i => (groupFor find configs params i).2.count a).sum := by
        intro r
        induction r with
        | nil =>
          intro _ _ idx _ h _
          cases idx with
          | nil => rfl
          | cons i idx => exact absurd (h i (by simp)) (by simp)
        | cons j r ih =>
          intro hr hle idx hidx hmem hemp
          rw [List.pairwise_cons] at hr
          rw [List.map_cons, List.sum_cons]
          by_cases hj : j ∈ idx
          · cases idx with
            | nil => simp at hj
            | cons i idx =>
              rw [List.pairwise_cons] at hidx
              have hij : i = j := by
                rcases List.mem_cons.1 hj with h | h
                · exact h.symm
                · have h1 := hidx.1 j h
                  rcases List.mem_cons.1 (hmem i (by simp)) with h' | h'
                  · exact h'
                  · have := hr.1 i h'; omega
              subst hij
              rw [List.map_cons, List.sum_cons]
              congr 1
              refine ih hr.2 (fun i hi => hle i (by simp [hi])) idx hidx.2 ?_ ?_
              · intro k hk
                rcases List.mem_cons.1 (hmem k (by simp [hk])) with h' | h'
                · have := hidx.1 k hk; omega
                · exact h'
              · intro k hk hni
                refine hemp k (by simp [hk]) ?_
                intro h
                rcases List.mem_cons.1 h with h | h
                · have := hr.1 k hk; omega
                · exact hni h
          · rw [hemp j (by simp) hj, List.count_nil, Nat.zero_add]
            refine ih hr.2 (fun i hi => hle i (by simp [hi])) idx hidx ?_ (fun i hi h => hemp i (by simp [hi]) h)
            intro k hk
            rcases List.mem_cons.1 (hmem k hk) with h | h
            · subst h; exact absurd hk hj
            · exact h
      exact hsub (List.range (configs.length + 1)) List.pairwise_lt_range
        (fun i hi => by have := List.mem_range.1 hi; omega) idx h1
        (fun i hi => List.mem_range.2 (Nat.lt_succ_of_le (h2 i hi)))
        (fun i hi hni => ((h4 i (by have := List.mem_range.1 hi; omega)).1 hni).1)

/-- How many groups there are, unless a configuration consists of the pattern `.*` alone: one for each configuration, and one more if
there are parameters that none names. -/
theorem C93_count_partial (find : String → String → Bool) (hall : ∀ name, find ".*" name = true) (configs : List (Config V))
    (hne : configs ≠ []) (params : List (String × P)) (hdot : ∀ c ∈ configs, c.params ≠ [".*"]) :
    (prepare find configs params).num =
      if ∃ x ∈ params, ∀ c ∈ configs, ¬ Names find c x.1 then configs.length + 1 else configs.length := by
  obtain ⟨idx, h1, h2, h3, h4⟩ := C93_groups find hall configs hne params
  have hnd : idx.Nodup := h1.imp fun h => Nat.ne_of_lt h
  have hin : ∀ i, i < configs.length → i ∈ idx := by
    intro i hi
    refine Classical.byContradiction fun hni => ?_
    exact hdot _ (List.getElem_mem hi) (((h4 i (by omega)).1 hni).2 _ (List.getElem?_eq_getElem hi))
  have hlast : configs.length ∈ idx ↔ ∃ x ∈ params, ∀ c ∈ configs, ¬ Names find c x.1 := by
    have := h4 configs.length (Nat.le_refl _)
    rw [← Classical.not_not (a := configs.length ∈ idx), this]
    constructor
    · intro h
      have h : (groupFor find configs params configs.length).2 ≠ [] := fun h' => h ⟨h', by simp⟩
      obtain ⟨p, hp⟩ := List.exists_mem_of_ne_nil _ h
      simp only [groupFor, List.mem_map, List.mem_filter, beq_iff_eq] at hp
      obtain ⟨x, ⟨hx, hg⟩, _⟩ := hp
      refine ⟨x, hx, fun c hc => ?_⟩
      obtain ⟨j, hj, rfl⟩ := List.mem_iff_getElem.1 hc
      exact ((C93_first find configs x.1 _).1 hg).1 j _ hj (List.getElem?_eq_getElem hj)
    · rintro ⟨x, hx, hno⟩ ⟨h, _⟩
      have hg : groupOf find configs x.1 = configs.length :=
        (C93_first find configs x.1 _).2 ⟨fun j c _ hc => hno c (List.mem_of_getElem? hc), .inr rfl, Nat.le_refl _⟩
      have : x.2 ∈ (groupFor find configs params configs.length).2 := by
        simp only [groupFor, List.mem_map, List.mem_filter, beq_iff_eq]
        exact ⟨x, ⟨hx, hg⟩, rfl⟩
      rw [h] at this
      simp at this
  rw [h3]
  show (idx.map _).length = _
  rw [List.length_map]
  split
  · next h =>
    have : idx.Perm (List.range (configs.length + 1)) := by
      rw [List.perm_ext_iff_of_nodup hnd List.nodup_range]
      intro i
      rw [List.mem_range]
      constructor
      · intro hi; have := h2 i hi; omega
      · intro hi
        by_cases hi' : i < configs.length
        · exact hin i hi'
        · have : i = configs.length := by omega
          rw [this]; exact hlast.2 h
    rw [this.length_eq, List.length_range]
  · next h =>
    have : idx.Perm (List.range configs.length) := by
      rw [List.perm_ext_iff_of_nodup hnd List.nodup_range]
      intro i
      rw [List.mem_range]
      constructor
      · intro hi
        have hle := h2 i hi
        by_cases hi' : i = configs.length
        · rw [hi'] at hi; exact absurd (hlast.1 hi) h
        · omega
      · exact hin i
    rw [this.length_eq, List.length_range]

/-- With such a configuration there may be fewer groups than configurations although every parameter is named: then a list with a
learning rate for each configuration is refused. -/
theorem C93_count_negation : ∃ (find : String → String → Bool) (configs : List (Config Nat)) (params : List (String × Nat)),
    (∀ name, find ".*" name = true) ∧ configs.length = 2 ∧ (∀ x ∈ params, ∃ c ∈ configs, Names find c x.1) ∧
    (prepare find configs params).num = 1 ∧
    rates (.inr [1, 2] : Nat ⊕ List Nat) (prepare find configs params).num = none := by
  refine ⟨fun p _ => p == ".*", [⟨["w"], [("lr", some 1)]⟩, ⟨[".*"], [("lr", some 2)]⟩], [("w", 7)], ?_, rfl, ?_, ?_, ?_⟩
  · intro _; rfl
  · decide +kernel
  · decide +kernel
  · decide +kernel

/-- Selecting by names and selecting all others divide the parameters, in the order of the model. -/
theorem C93_select (find : String → String → Bool) (names : List String) (params : List (String × P)) :
    select find names false params = params.filter (fun x => names.any fun p => p == x.1 || find p x.1) ∧
    select find names true params = params.filter (fun x => !names.any fun p => p == x.1 || find p x.1) ∧
    (select find names false params ++ select find names true params).Perm params := by
  have h : ∀ x : String × P, hit find names x.1 = names.any fun p => p == x.1 || find p x.1 := by
    intro x
    unfold hit
    congr 1
    funext p
    rw [show (x.1 == p) = (p == x.1) from BEq.comm]
  have h1 : select find names false params = params.filter (fun x => names.any fun p => p == x.1 || find p x.1) := by
    unfold select
    congr 1
    funext x
    simp [h]
  have h2 : select find names true params = params.filter (fun x => !names.any fun p => p == x.1 || find p x.1) := by
    unfold select
    congr 1
    funext x
    simp [h]
  refine ⟨h1, h2, ?_⟩
  rw [h1, h2]
  exact List.filter_append_perm _ _

/-- A list of learning rates is taken as it is if it has one for each group, and is refused otherwise; a single one is for all. -/
theorem C93_rates {R : Type} (l : List R) (x : R) (num : Nat) :
    (rates (.inr l) num = some l ↔ l.length = num) ∧ (rates (.inr l) num = none ↔ l.length ≠ num) ∧
    ∃ r, rates (.inl x) num = some r ∧ r.length = num ∧ ∀ y ∈ r, y = x := by
  unfold rates
  refine ⟨?_, ?_, _, rfl, by simp, fun y hy => (List.mem_replicate.1 hy).2⟩
  · split <;> simp_all
  · split <;> simp_all

/-! ### Examples -/

private def prefixFind : String → String → Bool := fun p n => p == ".*" || n.startsWith p

private def threeConfigs : List (Config Nat) :=
  [⟨["encoder.norm"], [("lr", some 1), ("betas", none)]⟩, ⟨["encoder", "head"], [("lr", none), ("betas", some 9)]⟩, ⟨["none"], []⟩]

private def fourParams : List (String × Nat) := [("encoder.a", 1), ("encoder.norm", 2), ("decoder", 3), ("head", 4)]

example : (∀ name, prefixFind ".*" name = true) ∧ threeConfigs ≠ [] ∧ (∀ c ∈ threeConfigs, c.params ≠ [".*"]) ∧
    (∃ x ∈ fourParams, ∀ c ∈ threeConfigs, ¬ Names prefixFind c x.1) ∧
    prepare prefixFind threeConfigs fourParams =
      .groups [([("lr", 1)], [2]), ([("betas", 9)], [1, 4]), ([], []), ([], [3])] := by
  refine ⟨fun _ => rfl, by simp [threeConfigs], by decide +kernel, by decide +kernel, ?_⟩
  have : ∀ o o' : List (List (String × Nat) × List Nat), o = o' → Out.groups o = Out.groups o' := fun _ _ h => by rw [h]
  exact this _ _ (by decide +kernel)

end Fs2.Props
